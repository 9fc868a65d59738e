import Verif.Model.Dfa
import Verif.Spec.Automata
import Verif.Proofs.Basic
/-! # Lemmas about DFAs, their runs and evaluators -/

namespace Dandy

theorem getD_eq_of_getElem? {α : Type} {l : List α} {i : Nat} {a d : α} (h : l[i]? = some a) : l.getD i d = a := by
  simp [List.getD, h]

theorem getElem?_of_lt {α : Type} {l : List α} {i : Nat} (d : α) (h : i < l.length) : l[i]? = some (l.getD i d) := by
  simp [List.getD, h]

theorem lt_of_getElem? {α : Type} {l : List α} {i : Nat} {a : α} (h : l[i]? = some a) : i < l.length := by
  by_contra hc
  rw [List.getElem?_eq_none (by omega)] at h; simp at h

namespace Dfa

theorem state_mem {d : Dfa} {q : Nat} (h : q < d.states.length) : d.state q ∈ d.states :=
  List.mem_of_getElem? (getElem?_of_lt default h)

theorem getElem?_state {d : Dfa} {q : Nat} (h : q < d.states.length) : d.states[q]? = some (d.state q) :=
  getElem?_of_lt default h

theorem state_of_getElem? {d : Dfa} {q : Nat} {s : DfaState} (h : d.states[q]? = some s) : d.state q = s :=
  getD_eq_of_getElem? h

/-- One step of the transition function by element. -/
def nxt (d : Dfa) (q : Nat) (e : Str) : Option Nat :=
  (revGet d.alphabet e).map (fun i => (d.state q).transitions.getD i 0)

/-- Run of the transition function. -/
def runE (d : Dfa) : Nat → Word → Option Nat
  | q, [] => some q
  | q, e :: w => (d.nxt q e).bind (fun t => d.runE t w)

theorem nxt_none {d : Dfa} {q : Nat} {e : Str} : d.nxt q e = none ↔ e ∉ d.alphabet := by
  simp [nxt, revGet_none]

theorem nxt_exists {d : Dfa} {q : Nat} {e : Str} (h : e ∈ d.alphabet) : ∃ t, d.nxt q e = some t := by
  obtain ⟨j, hj⟩ := revGet_exists h
  exact ⟨_, by simp [nxt, hj]; rfl⟩

theorem nxt_lt {d : Dfa} (hw : d.WF) {q t : Nat} {e : Str} (hq : q < d.states.length) (h : d.nxt q e = some t) :
    t < d.states.length := by
  unfold nxt at h
  cases hr : revGet d.alphabet e with
  | none => simp [hr] at h
  | some i =>
    simp only [hr, Option.map_some, Option.some.injEq] at h
    have hlen := hw.row_len _ (state_mem hq)
    have hi : i < (d.state q).transitions.length := by rw [hlen]; exact revGet_lt hr
    have := List.mem_of_getElem? (getElem?_of_lt 0 hi)
    rw [h] at this
    exact hw.targets _ (state_mem hq) _ this

theorem nxt_iff {d : Dfa} (hw : d.WF) {q t : Nat} {e : Str} (hq : q < d.states.length) :
    d.nxt q e = some t ↔ ∃ i : Nat, d.alphabet[i]? = some e ∧ (d.state q).transitions[i]? = some t := by
  have hlen := hw.row_len _ (state_mem hq)
  unfold nxt
  constructor
  · intro h
    cases hr : revGet d.alphabet e with
    | none => simp [hr] at h
    | some i =>
      simp only [hr, Option.map_some, Option.some.injEq] at h
      refine ⟨i, revGet_some hr, ?_⟩
      rw [getElem?_of_lt 0 (by rw [hlen]; exact revGet_lt hr), h]
  · rintro ⟨i, h1, h2⟩
    rw [revGet_of_getElem? hw.alphabet_nodup h1]
    simp [h2]

theorem runE_append {d : Dfa} (q : Nat) (u v : Word) :
    d.runE q (u ++ v) = (d.runE q u).bind (fun t => d.runE t v) := by
  induction u generalizing q with
  | nil => simp [runE]
  | cons e u ih =>
    simp only [List.cons_append, runE]
    cases d.nxt q e with
    | none => rfl
    | some t => simp [ih]

theorem runE_lt {d : Dfa} (hw : d.WF) {q r : Nat} {w : Word} (hq : q < d.states.length) (h : d.runE q w = some r) :
    r < d.states.length := by
  induction w generalizing q with
  | nil => simp [runE] at h; omega
  | cons e w ih =>
    simp only [runE] at h
    cases hn : d.nxt q e with
    | none => simp [hn] at h
    | some t => simp only [hn, Option.bind_some] at h; exact ih (nxt_lt hw hq hn) h

theorem runE_none {d : Dfa} {q : Nat} {w : Word} : d.runE q w = none ↔ ∃ e ∈ w, e ∉ d.alphabet := by
  induction w generalizing q with
  | nil => simp [runE]
  | cons e w ih =>
    simp only [runE, List.mem_cons, exists_eq_or_imp]
    by_cases he : e ∈ d.alphabet
    · obtain ⟨t, ht⟩ := nxt_exists (q := q) he
      simp [ht, ih, he]
    · have : d.nxt q e = none := nxt_none.2 he
      simp [this, he]

theorem runE_exists {d : Dfa} (q : Nat) {w : Word} (h : Over d.alphabet w) : ∃ r, d.runE q w = some r := by
  cases hr : d.runE q w with
  | none => rw [runE_none] at hr; obtain ⟨e, h1, h2⟩ := hr; exact absurd (h e h1) h2
  | some r => exact ⟨r, rfl⟩

theorem over_of_runE {d : Dfa} {q r : Nat} {w : Word} (h : d.runE q w = some r) : Over d.alphabet w := by
  intro e he
  by_contra hc
  have := (runE_none (d := d) (q := q) (w := w)).2 ⟨e, he, hc⟩
  rw [this] at h; cases h

theorem run_iff {d : Dfa} (hw : d.WF) {q r : Nat} {w : Word} (hq : q < d.states.length) :
    d.Run q w r ↔ d.runE q w = some r := by
  constructor
  · intro h
    induction h with
    | nil q => rfl
    | cons h1 h2 h3 _ ih =>
      have hn := (nxt_iff hw hq).2 ⟨_, h2, by rw [state_of_getElem? h1]; exact h3⟩
      simp only [runE, hn, Option.bind_some]
      exact ih (nxt_lt hw hq hn)
  · intro h
    induction w generalizing q with
    | nil => simp only [runE, Option.some.injEq] at h; subst h; exact .nil _
    | cons e w ih =>
      simp only [runE] at h
      cases hn : d.nxt q e with
      | none => simp [hn] at h
      | some t =>
        simp only [hn, Option.bind_some] at h
        obtain ⟨i, h1, h2⟩ := (nxt_iff hw hq).1 hn
        exact .cons (getElem?_state hq) h1 h2 (ih (nxt_lt hw hq hn) h)

theorem acc_iff {d : Dfa} {q : Nat} (hq : q < d.states.length) : d.Acc q ↔ (d.state q).accepting = true := by
  unfold Acc
  rw [getElem?_state hq]
  simp

theorem lang_iff {d : Dfa} (hw : d.WF) {w : Word} :
    d.Lang w ↔ ∃ q, d.runE d.initialState w = some q ∧ (d.state q).accepting = true := by
  unfold Lang
  constructor
  · rintro ⟨q, h1, h2⟩
    rw [run_iff hw hw.init_lt] at h1
    exact ⟨q, h1, (acc_iff (runE_lt hw hw.init_lt h1)).1 h2⟩
  · rintro ⟨q, h1, h2⟩
    exact ⟨q, (run_iff hw hw.init_lt).2 h1, (acc_iff (runE_lt hw hw.init_lt h1)).2 h2⟩

theorem over_of_lang {d : Dfa} (hw : d.WF) {w : Word} (h : d.Lang w) : Over d.alphabet w := by
  obtain ⟨q, h1, _⟩ := (lang_iff hw).1 h
  exact over_of_runE h1

/-- A relation between the states of two DFAs that is respected by acceptance and steps makes the languages equal. -/
theorem lang_eq_of_bisim {d o : Dfa} (hd : d.WF) (ho : o.WF) (R : Nat → Nat → Prop)
    (hinit : R d.initialState o.initialState)
    (hacc : ∀ q r, R q r → ((d.state q).accepting = true ↔ (o.state r).accepting = true))
    (hstep : ∀ q r e, R q r →
      (d.nxt q e = none ∧ o.nxt r e = none) ∨ ∃ t u, d.nxt q e = some t ∧ o.nxt r e = some u ∧ R t u)
    (w : Word) : d.Lang w ↔ o.Lang w := by
  have main : ∀ (w : Word) (q r : Nat), R q r →
      (d.runE q w = none ∧ o.runE r w = none) ∨ ∃ t u, d.runE q w = some t ∧ o.runE r w = some u ∧ R t u := by
    intro w
    induction w with
    | nil => intro q r h; exact Or.inr ⟨q, r, rfl, rfl, h⟩
    | cons e w ih =>
      intro q r h
      rcases hstep q r e h with ⟨h1, h2⟩ | ⟨t, u, h1, h2, h3⟩
      · left; simp [runE, h1, h2]
      · simp only [runE, h1, h2, Option.bind_some]
        exact ih t u h3
  rw [lang_iff hd, lang_iff ho]
  rcases main w _ _ hinit with ⟨h1, h2⟩ | ⟨t, u, h1, h2, h3⟩
  · simp [h1, h2]
  · simp only [h1, h2, Option.some.injEq]
    constructor
    · rintro ⟨_, rfl, h⟩; exact ⟨_, rfl, (hacc _ _ h3).1 h⟩
    · rintro ⟨_, rfl, h⟩; exact ⟨_, rfl, (hacc _ _ h3).2 h⟩

end Dfa

namespace DfaEval

theorem step_known {d : Dfa} {q : Nat} {e : Str} {t : Nat} (h : d.nxt q e = some t) :
    (⟨d, q, false⟩ : DfaEval).step e = (⟨d, t, false⟩, some (d.state t)) := by
  unfold Dfa.nxt at h
  cases hr : revGet d.alphabet e with
  | none => simp [hr] at h
  | some i =>
    simp only [hr, Option.map_some, Option.some.injEq] at h
    simp [step, hr]
    rw [← h]; exact ⟨rfl, rfl⟩

theorem step_unknown {d : Dfa} {q : Nat} {e : Str} (h : d.nxt q e = none) :
    (⟨d, q, false⟩ : DfaEval).step e = (⟨d, q, true⟩, none) := by
  rw [Dfa.nxt_none] at h
  simp [step, revGet_none.2 h]

theorem tryForEach_known {d : Dfa} {q r : Nat} {w : Word} (h : d.runE q w = some r) :
    (⟨d, q, false⟩ : DfaEval).tryForEach w = (⟨d, r, false⟩, some ()) := by
  induction w generalizing q with
  | nil => simp only [Dfa.runE, Option.some.injEq] at h; subst h; rfl
  | cons e w ih =>
    simp only [Dfa.runE] at h
    cases hn : d.nxt q e with
    | none => simp [hn] at h
    | some t =>
      simp only [hn, Option.bind_some] at h
      simp only [tryForEach, step_known hn]
      exact ih h

theorem tryForEach_unknown {d : Dfa} {q : Nat} {w : Word} (h : d.runE q w = none) :
    ∃ r, (⟨d, q, false⟩ : DfaEval).tryForEach w = (⟨d, r, true⟩, none) := by
  induction w generalizing q with
  | nil => simp [Dfa.runE] at h
  | cons e w ih =>
    simp only [Dfa.runE] at h
    cases hn : d.nxt q e with
    | none => exact ⟨q, by simp only [tryForEach, step_unknown hn]⟩
    | some t =>
      simp only [hn, Option.bind_some] at h
      simp only [tryForEach, step_known hn]
      exact ih h

theorem tryForEach_stuck {d : Dfa} {q : Nat} {w : Word} :
    ((⟨d, q, true⟩ : DfaEval).tryForEach w).1 = ⟨d, q, true⟩ := by
  cases w with
  | nil => rfl
  | cons e w => simp [tryForEach, step]

theorem stepMultiple_known {d : Dfa} {q r : Nat} {w : Word} (h : d.runE q w = some r) :
    (⟨d, q, false⟩ : DfaEval).stepMultiple w = (⟨d, r, false⟩, some (d.state r)) := by
  simp [stepMultiple, tryForEach_known h]

theorem stepMultiple_unknown {d : Dfa} {q : Nat} {w : Word} (h : d.runE q w = none) :
    ∃ r, (⟨d, q, false⟩ : DfaEval).stepMultiple w = (⟨d, r, true⟩, none) := by
  obtain ⟨r, hr⟩ := tryForEach_unknown h
  exact ⟨r, by simp [stepMultiple, hr]⟩

theorem stepMultiple_stuck {d : Dfa} {q : Nat} {w : Word} :
    ((⟨d, q, true⟩ : DfaEval).stepMultiple w).1 = ⟨d, q, true⟩ := by
  have := tryForEach_stuck (d := d) (q := q) (w := w)
  unfold stepMultiple
  split
  · rename_i h; rw [h] at this; simp only at this; rw [this]
  · rename_i h; rw [h] at this; exact this

end DfaEval

/-! ## Validity as a computable check (for concrete examples) -/

/-- Computable version of `Dfa.WF`. -/
def Dfa.wfB (d : Dfa) : Bool :=
  decide d.alphabet.Nodup && decide (d.states.map (·.name)).Nodup &&
  d.states.all (fun s => decide (s.transitions.length = d.alphabet.length)) &&
  d.states.all (fun s => s.transitions.all (fun t => decide (t < d.states.length))) &&
  decide (d.initialState < d.states.length) &&
  d.states.zipIdx.all (fun p => p.1.initial == decide (p.2 = d.initialState))

theorem Dfa.wf_of_wfB {d : Dfa} (h : d.wfB = true) : d.WF := by
  simp only [wfB, Bool.and_eq_true, decide_eq_true_eq, List.all_eq_true, beq_iff_eq] at h
  obtain ⟨⟨⟨⟨⟨h1, h2⟩, h3⟩, h4⟩, h5⟩, h6⟩ := h
  refine ⟨h1, h2, h3, h4, h5, ?_⟩
  intro i s hs
  have := h6 (s, i) (by rw [List.mem_zipIdx_iff_getElem?]; exact hs)
  simp only at this
  rw [this, decide_eq_true_eq]

end Dandy
