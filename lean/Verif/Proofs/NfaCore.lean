import Verif.Proofs.DfaCore
import Verif.Model.Nfa
/-! # Lemmas about NFAs, their paths and evaluators -/

namespace Dandy

namespace Nfa

theorem state_mem {n : Nfa} {q : Nat} (h : q < n.states.length) : n.state q ∈ n.states :=
  List.mem_of_getElem? (getElem?_of_lt default h)

theorem getElem?_state {n : Nfa} {q : Nat} (h : q < n.states.length) : n.states[q]? = some (n.state q) :=
  getElem?_of_lt default h

theorem state_of_getElem? {n : Nfa} {q : Nat} {s : NfaState} (h : n.states[q]? = some s) : n.state q = s :=
  getD_eq_of_getElem? h

theorem state_default {n : Nfa} {q : Nat} (h : ¬ q < n.states.length) : n.state q = default := by
  simp [state, h]

/-- Epsilon targets of a state. -/
def ep (n : Nfa) (q : Nat) : List Nat := (n.state q).epsilonTransitions

/-- Targets of a state by column. -/
def tr (n : Nfa) (q i : Nat) : List Nat := (n.state q).transitions.getD i []

/-- One step by element. -/
def Step (n : Nfa) (q : Nat) (e : Str) (t : Nat) : Prop := ∃ i : Nat, n.alphabet[i]? = some e ∧ t ∈ n.tr q i

/-- Epsilon reachability. -/
def EpsR (n : Nfa) : Nat → Nat → Prop := Relation.ReflTransGen (fun a b => b ∈ n.ep a)

theorem mem_ep {n : Nfa} {q t : Nat} : t ∈ n.ep q ↔ ∃ s, n.states[q]? = some s ∧ t ∈ s.epsilonTransitions := by
  by_cases h : q < n.states.length
  · rw [getElem?_state h]; simp [ep]
  · have h2 := state_default h
    rw [List.getElem?_eq_none (by omega)]
    simp [ep, h2]; exact List.not_mem_nil

theorem mem_tr {n : Nfa} {q t i : Nat} :
    t ∈ n.tr q i ↔ ∃ s ts, n.states[q]? = some s ∧ s.transitions[i]? = some ts ∧ t ∈ ts := by
  by_cases h : q < n.states.length
  · rw [getElem?_state h]
    unfold tr
    by_cases hi : i < (n.state q).transitions.length
    · simp [hi]
    · simp [hi]
  · have h2 := state_default h
    rw [List.getElem?_eq_none (by omega)]
    have : (default : NfaState).transitions = [] := rfl
    simp [tr, h2, this]

theorem ep_lt {n : Nfa} (hn : n.WF) {q t : Nat} (h : t ∈ n.ep q) : t < n.states.length := by
  obtain ⟨s, h1, h2⟩ := mem_ep.1 h
  exact hn.eps_targets s (List.mem_of_getElem? h1) t h2

theorem tr_lt {n : Nfa} (hn : n.WF) {q t i : Nat} (h : t ∈ n.tr q i) : t < n.states.length := by
  obtain ⟨s, ts, h1, h2, h3⟩ := mem_tr.1 h
  exact hn.targets s (List.mem_of_getElem? h1) ts (List.mem_of_getElem? h2) t h3

theorem EpsR.lt {n : Nfa} (hn : n.WF) {q r : Nat} (hq : q < n.states.length) (h : n.EpsR q r) : r < n.states.length := by
  induction h with
  | refl => exact hq
  | tail _ h2 _ => exact ep_lt hn h2

/-! ## Paths -/

theorem path_nil_iff {n : Nfa} {q r : Nat} : n.Path q [] r ↔ n.EpsR q r := by
  constructor
  · intro h
    generalize hw : ([] : Word) = w at h
    induction h with
    | nil => exact .refl
    | eps h1 h2 _ ih => exact .head (mem_ep.2 ⟨_, h1, h2⟩) (ih hw)
    | step => cases hw
  · intro h
    induction h using Relation.ReflTransGen.head_induction_on with
    | refl => exact .nil _
    | head h1 _ ih =>
      obtain ⟨s, h2, h3⟩ := mem_ep.1 h1
      exact .eps h2 h3 ih

theorem path_append {n : Nfa} {q r : Nat} {u v : Word} : n.Path q (u ++ v) r ↔ ∃ p, n.Path q u p ∧ n.Path p v r := by
  constructor
  · intro h
    generalize hw : u ++ v = w at h
    induction h generalizing u with
    | nil q =>
      rw [List.append_eq_nil_iff] at hw
      obtain ⟨rfl, rfl⟩ := hw
      exact ⟨q, .nil q, .nil q⟩
    | eps h1 h2 _ ih =>
      obtain ⟨p, h3, h4⟩ := ih hw
      exact ⟨p, .eps h1 h2 h3, h4⟩
    | step h1 h2 h3 h4 h5 ih =>
      cases u with
      | nil =>
        rw [List.nil_append] at hw; subst hw
        exact ⟨_, .nil _, .step h1 h2 h3 h4 h5⟩
      | cons e u =>
        rw [List.cons_append, List.cons.injEq] at hw
        obtain ⟨rfl, hw⟩ := hw
        obtain ⟨p, h6, h7⟩ := ih hw
        exact ⟨p, .step h1 h2 h3 h4 h6, h7⟩
  · rintro ⟨p, h1, h2⟩
    induction h1 with
    | nil => exact h2
    | eps h3 h4 _ ih => exact .eps h3 h4 (ih h2)
    | step h3 h4 h5 h6 _ ih => exact .step h3 h4 h5 h6 (ih h2)

theorem path_cons_iff {n : Nfa} {q r : Nat} {e : Str} {w : Word} :
    n.Path q (e :: w) r ↔ ∃ p t, n.EpsR q p ∧ n.Step p e t ∧ n.Path t w r := by
  constructor
  · intro h
    generalize hw : e :: w = v at h
    induction h with
    | nil => cases hw
    | eps h1 h2 _ ih =>
      obtain ⟨p, t, h3, h4, h5⟩ := ih hw
      exact ⟨p, t, .head (mem_ep.2 ⟨_, h1, h2⟩) h3, h4, h5⟩
    | step h1 h2 h3 h4 h5 ih =>
      cases hw
      exact ⟨_, _, .refl, ⟨_, h2, mem_tr.2 ⟨_, _, h1, h3, h4⟩⟩, h5⟩
  · rintro ⟨p, t, h1, ⟨i, h2, h3⟩, h4⟩
    have h5 := path_nil_iff.2 h1
    obtain ⟨s, ts, h6, h7, h8⟩ := mem_tr.1 h3
    exact (path_append (u := [])).2 ⟨p, h5, .step h6 h2 h7 h8 h4⟩

theorem path_snoc_iff {n : Nfa} {q r : Nat} {e : Str} {w : Word} :
    n.Path q (w ++ [e]) r ↔ ∃ p t, n.Path q w p ∧ n.Step p e t ∧ n.EpsR t r := by
  rw [path_append]
  constructor
  · rintro ⟨p, h1, h2⟩
    obtain ⟨p', t, h3, h4, h5⟩ := path_cons_iff.1 h2
    refine ⟨p', t, ?_, h4, path_nil_iff.1 h5⟩
    rw [← List.append_nil w]
    exact path_append.2 ⟨p, h1, path_nil_iff.2 h3⟩
  · rintro ⟨p, t, h1, h2, h3⟩
    exact ⟨p, h1, path_cons_iff.2 ⟨p, t, .refl, h2, path_nil_iff.2 h3⟩⟩

theorem path_lt {n : Nfa} (hn : n.WF) {q r : Nat} {w : Word} (hq : q < n.states.length) (h : n.Path q w r) :
    r < n.states.length := by
  induction h with
  | nil => exact hq
  | eps h1 h2 _ ih => exact ih (ep_lt hn (mem_ep.2 ⟨_, h1, h2⟩))
  | step h1 _ h3 h4 _ ih => exact ih (tr_lt hn (mem_tr.2 ⟨_, _, h1, h3, h4⟩))

theorem over_of_path {n : Nfa} {q r : Nat} {w : Word} (h : n.Path q w r) : Over n.alphabet w := by
  induction h with
  | nil => intro e he; simp at he
  | eps _ _ _ ih => exact ih
  | step _ h2 _ _ _ ih =>
    intro e he
    rw [List.mem_cons] at he
    rcases he with rfl | he
    · exact List.mem_of_getElem? h2
    · exact ih e he

theorem over_of_lang {n : Nfa} {w : Word} (h : n.Lang w) : Over n.alphabet w := by
  obtain ⟨q, h1, _⟩ := h; exact over_of_path h1

theorem acc_iff {n : Nfa} {q : Nat} : n.Acc q ↔ (n.state q).accepting = true := by
  unfold Acc
  by_cases h : q < n.states.length
  · rw [getElem?_state h]; simp
  · rw [state_default h, List.getElem?_eq_none (by omega)]
    simp; rfl

theorem step_iff {n : Nfa} (hn : n.WF) {q t : Nat} {e : Str} :
    n.Step q e t ↔ ∃ i, revGet n.alphabet e = some i ∧ t ∈ n.tr q i := by
  constructor
  · rintro ⟨i, h1, h2⟩; exact ⟨i, revGet_of_getElem? hn.alphabet_nodup h1, h2⟩
  · rintro ⟨i, h1, h2⟩; exact ⟨i, revGet_some h1, h2⟩

/-! ## Epsilon closure of a set -/

theorem mem_closureRound {n : Nfa} {cur : List Nat} {x : Nat} :
    x ∈ n.closureRound cur ↔ (∃ s ∈ cur, x ∈ n.ep s) ∧ x ∉ cur := by
  simp [closureRound, ep]

theorem includeClosure_spec {n : Nfa} (hn : n.WF) : ∀ (k : Nat) (cur : List Nat), cur.Pairwise (· < ·) →
    (∀ x ∈ cur, x < n.states.length) → n.states.length - cur.length + 1 ≤ k →
    let r := n.includeClosure k cur
    r.Pairwise (· < ·) ∧ n.closureRound r = [] ∧ ∀ x, x ∈ r ↔ ∃ s ∈ cur, n.EpsR s x := by
  intro k
  induction k with
  | zero => intro cur _ _ h; omega
  | succ k ih =>
    intro cur hs hlt hk
    simp only [includeClosure]
    split
    · rename_i he
      refine ⟨hs, he, fun x => ⟨fun h => ⟨x, h, .refl⟩, ?_⟩⟩
      rintro ⟨s, h1, h2⟩
      induction h2 with
      | refl => exact h1
      | tail _ h3 ih2 =>
        by_contra hc
        have := mem_closureRound.2 ⟨⟨_, ih2, h3⟩, hc⟩
        rw [he] at this; simp at this
    · rename_i he
      have hs' := sorted_sextend (l := n.closureRound cur) hs
      have hlt' : ∀ x ∈ sextend cur (n.closureRound cur), x < n.states.length := by
        intro x hx
        rw [mem_sextend] at hx
        rcases hx with hx | hx
        · exact hlt x hx
        · obtain ⟨⟨s, _, h2⟩, _⟩ := mem_closureRound.1 hx
          exact ep_lt hn h2
      have hlen : cur.length + 1 ≤ (sextend cur (n.closureRound cur)).length := by
        obtain ⟨x, hx⟩ := List.exists_mem_of_ne_nil _ he
        have hnd : (x :: cur).Nodup := by
          rw [List.nodup_cons]; exact ⟨(mem_closureRound.1 hx).2, sorted_nodup hs⟩
        have := nodup_subset_length_le hnd (K := sextend cur (n.closureRound cur)) (by
          intro y hy
          rw [mem_sextend]
          rw [List.mem_cons] at hy
          rcases hy with rfl | hy
          · exact Or.inr hx
          · exact Or.inl hy)
        simpa using this
      have hle := nodup_length_le (sorted_nodup hs') hlt'
      obtain ⟨h1, h2, h3⟩ := ih _ hs' hlt' (by omega)
      refine ⟨h1, h2, fun x => ?_⟩
      rw [h3]
      constructor
      · rintro ⟨s, h4, h5⟩
        rw [mem_sextend] at h4
        rcases h4 with h4 | h4
        · exact ⟨s, h4, h5⟩
        · obtain ⟨⟨s', h6, h7⟩, _⟩ := mem_closureRound.1 h4
          exact ⟨s', h6, .head h7 h5⟩
      · rintro ⟨s, h4, h5⟩
        exact ⟨s, by rw [mem_sextend]; exact Or.inl h4, h5⟩

/-- The loop of `include_closure` ends through its own condition: nothing is left to push. -/
theorem includeClosure_done {n : Nfa} (hn : n.WF) {cur : List Nat} (hs : cur.Pairwise (· < ·))
    (hlt : ∀ x ∈ cur, x < n.states.length) : n.closureRound (n.includeClosure (n.states.length + 1) cur) = [] :=
  (includeClosure_spec hn _ cur hs hlt (by omega)).2.1

/-- Set of states after one element given by its column. -/
def nset (n : Nfa) (S : List Nat) (i : Nat) : List Nat :=
  n.includeClosure (n.states.length + 1) (sofList (S.flatMap (fun s => (n.state s).transitions.getD i [])))

theorem mem_nset {n : Nfa} (hn : n.WF) {S : List Nat} {i : Nat} :
    (n.nset S i).Pairwise (· < ·) ∧ ∀ x, x ∈ n.nset S i ↔ ∃ s ∈ S, ∃ t ∈ n.tr s i, n.EpsR t x := by
  have hs := sorted_sofList (S.flatMap (fun s => (n.state s).transitions.getD i []))
  have hmem : ∀ x, x ∈ sofList (S.flatMap (fun s => (n.state s).transitions.getD i [])) ↔ ∃ s ∈ S, x ∈ n.tr s i := by
    intro x; rw [mem_sofList, List.mem_flatMap]; rfl
  obtain ⟨h1, _, h3⟩ := includeClosure_spec hn (n.states.length + 1) _ hs (by
    intro x hx
    obtain ⟨s, _, h⟩ := (hmem x).1 hx
    exact tr_lt hn h) (by omega)
  refine ⟨h1, fun x => ?_⟩
  unfold nset
  rw [h3]
  constructor
  · rintro ⟨t, h4, h5⟩
    obtain ⟨s, h6, h7⟩ := (hmem t).1 h4
    exact ⟨s, h6, t, h7, h5⟩
  · rintro ⟨s, h6, t, h7, h5⟩
    exact ⟨t, (hmem t).2 ⟨s, h6, h7⟩, h5⟩

/-- Set of states after a word from a set of states. -/
def setE (n : Nfa) : List Nat → Word → Option (List Nat)
  | S, [] => some S
  | S, e :: w => (revGet n.alphabet e).bind (fun i => n.setE (n.nset S i) w)

/-- The initial set. -/
def iset (n : Nfa) : List Nat := n.includeClosure (n.states.length + 1) [n.initialState]

theorem mem_iset {n : Nfa} (hn : n.WF) :
    n.iset.Pairwise (· < ·) ∧ ∀ x, x ∈ n.iset ↔ n.Path n.initialState [] x := by
  obtain ⟨h1, _, h3⟩ := includeClosure_spec hn (n.states.length + 1) [n.initialState] (by simp)
    (by simpa using hn.init_lt) (by omega)
  refine ⟨h1, fun x => ?_⟩
  unfold iset
  rw [h3, path_nil_iff]; simp

/-- `S` is the set of states the NFA can be in after `w`. -/
def IsAfter (n : Nfa) (w : Word) (S : List Nat) : Prop :=
  S.Pairwise (· < ·) ∧ ∀ x, x ∈ S ↔ n.Path n.initialState w x

theorem IsAfter.unique {n : Nfa} {w : Word} {S T : List Nat} (h : n.IsAfter w S) (h' : n.IsAfter w T) : S = T :=
  sorted_ext h.1 h'.1 (fun x => by rw [h.2, h'.2])

theorem isAfter_iset {n : Nfa} (hn : n.WF) : n.IsAfter [] n.iset := mem_iset hn

theorem isAfter_nset {n : Nfa} (hn : n.WF) {w : Word} {S : List Nat} {e : Str} {i : Nat} (h : n.IsAfter w S)
    (hi : revGet n.alphabet e = some i) : n.IsAfter (w ++ [e]) (n.nset S i) := by
  obtain ⟨h1, h2⟩ := mem_nset hn (S := S) (i := i)
  refine ⟨h1, fun x => ?_⟩
  rw [h2, path_snoc_iff]
  constructor
  · rintro ⟨s, h3, t, h4, h5⟩
    exact ⟨s, t, (h.2 s).1 h3, (step_iff hn).2 ⟨i, hi, h4⟩, h5⟩
  · rintro ⟨s, t, h3, h4, h5⟩
    obtain ⟨j, hj, h6⟩ := (step_iff hn).1 h4
    rw [hi] at hj; cases hj
    exact ⟨s, (h.2 s).2 h3, t, h6, h5⟩

theorem isAfter_setE {n : Nfa} (hn : n.WF) {u w : Word} {S T : List Nat} (h : n.IsAfter u S)
    (hw : n.setE S w = some T) : n.IsAfter (u ++ w) T := by
  induction w generalizing S u with
  | nil => simp only [setE, Option.some.injEq] at hw; subst hw; simpa using h
  | cons e w ih =>
    simp only [setE] at hw
    cases hi : revGet n.alphabet e with
    | none => simp [hi] at hw
    | some i =>
      simp only [hi, Option.bind_some] at hw
      have := ih (isAfter_nset hn h hi) hw
      simpa using this

theorem setE_none {n : Nfa} {S : List Nat} {w : Word} : n.setE S w = none ↔ ∃ e ∈ w, e ∉ n.alphabet := by
  induction w generalizing S with
  | nil => simp [setE]
  | cons e w ih =>
    simp only [setE, List.mem_cons, exists_eq_or_imp]
    cases hi : revGet n.alphabet e with
    | none => rw [revGet_none] at hi; simp [hi]
    | some i =>
      have : e ∈ n.alphabet := List.mem_of_getElem? (revGet_some hi)
      simp [ih, this]

theorem setE_append {n : Nfa} {S : List Nat} {u v : Word} :
    n.setE S (u ++ v) = (n.setE S u).bind (fun T => n.setE T v) := by
  induction u generalizing S with
  | nil => rfl
  | cons e u ih =>
    simp only [List.cons_append, setE]
    cases revGet n.alphabet e with
    | none => rfl
    | some i => simp [ih]

/-- Any word over the alphabet has a set of states. -/
theorem setE_exists {n : Nfa} {S : List Nat} {w : Word} (h : Over n.alphabet w) : ∃ T, n.setE S w = some T := by
  cases hr : n.setE S w with
  | none => rw [setE_none] at hr; obtain ⟨e, h1, h2⟩ := hr; exact absurd (h e h1) h2
  | some T => exact ⟨T, rfl⟩

theorem lang_iff {n : Nfa} {w : Word} {S : List Nat} (h : n.IsAfter w S) :
    n.Lang w ↔ S.any (fun q => (n.state q).accepting) = true := by
  rw [List.any_eq_true]
  unfold Lang
  constructor
  · rintro ⟨q, h1, h2⟩; exact ⟨q, (h.2 q).2 h1, acc_iff.1 h2⟩
  · rintro ⟨q, h1, h2⟩; exact ⟨q, (h.2 q).1 h1, acc_iff.2 h2⟩

theorem IsAfter.lt {n : Nfa} (hn : n.WF) {w : Word} {S : List Nat} (h : n.IsAfter w S) : ∀ x ∈ S, x < n.states.length :=
  fun x hx => path_lt hn hn.init_lt ((h.2 x).1 hx)

/-! ## closure, reachable states -/

theorem closure_spec {n : Nfa} (hn : n.WF) {q : Nat} (hq : q < n.states.length) :
    ∃ r, n.closure q = some r ∧ r.Pairwise (· < ·) ∧ ∀ x, x ∈ r ↔ n.EpsR q x := by
  unfold closure
  rw [if_neg (by omega)]
  exact bfs_spec (f := fun q => n.ep q) (fun _ _ => rfl) (fun q _ t ht => ep_lt hn ht) hq

/-- The states on some path from the initial state. -/
def Reach (n : Nfa) (q : Nat) : Prop := ∃ w, n.Path n.initialState w q

theorem mem_flatten_tr {n : Nfa} {q t : Nat} : t ∈ (n.state q).transitions.flatten ↔ ∃ i, t ∈ n.tr q i := by
  rw [List.mem_flatten]
  constructor
  · rintro ⟨ts, h1, h2⟩
    obtain ⟨i, hi⟩ := List.getElem?_of_mem h1
    exact ⟨i, by unfold tr; rw [getD_eq_of_getElem? hi]; exact h2⟩
  · rintro ⟨i, h⟩
    unfold tr at h
    by_cases hi : i < (n.state q).transitions.length
    · exact ⟨_, List.mem_of_getElem? (getElem?_of_lt [] hi), h⟩
    · simp [hi] at h

theorem tr_step {n : Nfa} (hn : n.WF) {q t i : Nat} (h : t ∈ n.tr q i) : ∃ e, n.Step q e t := by
  obtain ⟨s, ts, h1, h2, h3⟩ := mem_tr.1 h
  have hl := hn.row_len s (List.mem_of_getElem? h1)
  have hi := lt_of_getElem? h2
  rw [hl] at hi
  exact ⟨_, i, getElem?_of_lt [] hi, h⟩

theorem reachableStateIdx_spec {n : Nfa} (hn : n.WF) :
    ∃ r, n.reachableStateIdx = some r ∧ r.Pairwise (· < ·) ∧ ∀ q, q ∈ r ↔ n.Reach q := by
  classical
  have hex : ∀ q, ∃ c, q < n.states.length → n.closure q = some c ∧ ∀ x, x ∈ c ↔ n.EpsR q x := by
    intro q
    by_cases hq : q < n.states.length
    · obtain ⟨r, h1, _, h3⟩ := closure_spec hn hq; exact ⟨r, fun _ => ⟨h1, h3⟩⟩
    · exact ⟨[], fun h => absurd h hq⟩
  choose cl hcl using hex
  obtain ⟨r, h1, h2, h3⟩ := bfs_spec
    (succ := fun q => (n.closure q).map (fun c => (n.state q).transitions.flatten ++ c))
    (f := fun q => (n.state q).transitions.flatten ++ cl q) (n := n.states.length) (start := n.initialState)
    (fun q hq => by rw [(hcl q hq).1]; rfl)
    (fun q hq t ht => by
      rw [List.mem_append, mem_flatten_tr] at ht
      rcases ht with ⟨i, h⟩ | h
      · exact tr_lt hn h
      · exact EpsR.lt hn hq (((hcl q hq).2 t).1 h)) hn.init_lt
  refine ⟨r, h1, h2, fun q => ?_⟩
  rw [h3]
  constructor
  · intro h
    have : n.Reach q ∧ q < n.states.length := by
      induction h with
      | refl => exact ⟨⟨[], .nil _⟩, hn.init_lt⟩
      | tail _ hbc ih =>
        obtain ⟨⟨w, hw⟩, hlt⟩ := ih
        rw [List.mem_append, mem_flatten_tr] at hbc
        rcases hbc with ⟨i, h⟩ | h
        · obtain ⟨e, he⟩ := tr_step hn h
          exact ⟨⟨w ++ [e], path_snoc_iff.2 ⟨_, _, hw, he, .refl⟩⟩, tr_lt hn h⟩
        · have h' := ((hcl _ hlt).2 _).1 h
          exact ⟨⟨w ++ [], path_append.2 ⟨_, hw, path_nil_iff.2 h'⟩⟩, EpsR.lt hn hlt h'⟩
    exact this.1
  · rintro ⟨w, hw⟩
    have key : ∀ {p w q}, p < n.states.length → n.Path p w q →
        Relation.ReflTransGen (fun a b => b ∈ (n.state a).transitions.flatten ++ cl a) p q := by
      intro p w q hp h
      induction h with
      | nil => exact .refl
      | eps h1 h2 _ ih =>
        have h4 := mem_ep.2 ⟨_, h1, h2⟩
        exact .head (List.mem_append.2 (Or.inr (((hcl _ hp).2 _).2 (.single h4)))) (ih (ep_lt hn h4))
      | step h1 _ h3 h4 _ ih =>
        have h6 := mem_tr.2 ⟨_, _, h1, h3, h4⟩
        exact .head (List.mem_append.2 (Or.inl (mem_flatten_tr.2 ⟨_, h6⟩))) (ih (tr_lt hn h6))
    exact key hn.init_lt hw

theorem Reach.lt {n : Nfa} (hn : n.WF) {q : Nat} (h : n.Reach q) : q < n.states.length := by
  obtain ⟨w, hw⟩ := h; exact path_lt hn hn.init_lt hw

theorem unreachableStateIdx_spec {n : Nfa} (hn : n.WF) :
    ∃ r, n.unreachableStateIdx = some r ∧ r.Pairwise (· < ·) ∧ ∀ q, q ∈ r ↔ q < n.states.length ∧ ¬ n.Reach q := by
  obtain ⟨r, h1, _, h3⟩ := reachableStateIdx_spec hn
  exact ⟨_, by rw [unreachableStateIdx, h1]; rfl, sorted_filter_range _ _, fun q => by simp [h3]⟩

/-- Simulation of paths: moves of `n` are matched by moves of `o`, modulo epsilon moves of `o`. -/
theorem path_sim {n o : Nfa} (R : Nat → Nat → Prop)
    (heps : ∀ q r t, R q r → t ∈ n.ep q → ∃ u, o.EpsR r u ∧ R t u)
    (hstep : ∀ q r e t, R q r → n.Step q e t → ∃ u, o.Path r [e] u ∧ R t u)
    {p q : Nat} {w : Word} (h : n.Path p w q) : ∀ r, R p r → ∃ u, o.Path r w u ∧ R q u := by
  induction h with
  | nil q => intro r hr; exact ⟨r, .nil r, hr⟩
  | eps h1 h2 _ ih =>
    intro r hr
    obtain ⟨u, h3, h4⟩ := heps _ r _ hr (mem_ep.2 ⟨_, h1, h2⟩)
    obtain ⟨v, h5, h6⟩ := ih u h4
    exact ⟨v, (path_append (u := [])).2 ⟨u, path_nil_iff.2 h3, h5⟩, h6⟩
  | step h1 h2 h3 h4 _ ih =>
    intro r hr
    obtain ⟨u, h5, h6⟩ := hstep _ r _ _ hr ⟨_, h2, mem_tr.2 ⟨_, _, h1, h3, h4⟩⟩
    obtain ⟨v, h7, h8⟩ := ih u h6
    exact ⟨v, (path_append (u := [_])).2 ⟨u, h5, h7⟩, h8⟩

theorem step_path {n : Nfa} {q t : Nat} {e : Str} (h : n.Step q e t) : n.Path q [e] t :=
  path_cons_iff.2 ⟨q, t, .refl, h, .nil t⟩

/-- A simulation that also respects acceptance gives inclusion of languages. -/
theorem lang_sub_of_sim {n o : Nfa} (R : Nat → Nat → Prop)
    (hinit : R n.initialState o.initialState)
    (hacc : ∀ q r, R q r → n.Acc q → ∃ r', o.EpsR r r' ∧ o.Acc r')
    (heps : ∀ q r t, R q r → t ∈ n.ep q → ∃ u, o.EpsR r u ∧ R t u)
    (hstep : ∀ q r e t, R q r → n.Step q e t → ∃ u, o.Path r [e] u ∧ R t u)
    {w : Word} (h : n.Lang w) : o.Lang w := by
  obtain ⟨q, h1, h2⟩ := h
  obtain ⟨u, h3, h4⟩ := path_sim R heps hstep h1 _ hinit
  obtain ⟨r', h5, h6⟩ := hacc _ _ h4 h2
  refine ⟨r', ?_, h6⟩
  rw [← List.append_nil w]
  exact path_append.2 ⟨u, h3, path_nil_iff.2 h5⟩

end Nfa

namespace NfaEval

theorem new_eq (n : Nfa) : new n = ⟨n, n.iset, false⟩ := rfl

theorem step_known {n : Nfa} {S : List Nat} {b : Bool} {e : Str} {i : Nat} (h : revGet n.alphabet e = some i) :
    (⟨n, S, b⟩ : NfaEval).step e = (⟨n, n.nset S i, b⟩, some ()) := by
  simp only [step, h]; rfl

theorem step_unknown {n : Nfa} {S : List Nat} {b : Bool} {e : Str} (h : revGet n.alphabet e = none) :
    (⟨n, S, b⟩ : NfaEval).step e = (⟨n, S, true⟩, none) := by
  simp only [step, h]

theorem tryForEach_known {n : Nfa} {S T : List Nat} {b : Bool} {w : Word} (h : n.setE S w = some T) :
    (⟨n, S, b⟩ : NfaEval).tryForEach w = (⟨n, T, b⟩, some ()) := by
  induction w generalizing S with
  | nil => simp only [Nfa.setE, Option.some.injEq] at h; subst h; rfl
  | cons e w ih =>
    simp only [Nfa.setE] at h
    cases hi : revGet n.alphabet e with
    | none => simp [hi] at h
    | some i =>
      simp only [hi, Option.bind_some] at h
      simp only [tryForEach, step_known hi]
      exact ih h

theorem tryForEach_unknown {n : Nfa} {S : List Nat} {b : Bool} {w : Word} (h : n.setE S w = none) :
    ∃ T, (⟨n, S, b⟩ : NfaEval).tryForEach w = (⟨n, T, true⟩, none) := by
  induction w generalizing S with
  | nil => simp [Nfa.setE] at h
  | cons e w ih =>
    simp only [Nfa.setE] at h
    cases hi : revGet n.alphabet e with
    | none => exact ⟨S, by simp only [tryForEach, step_unknown hi]⟩
    | some i =>
      simp only [hi, Option.bind_some] at h
      simp only [tryForEach, step_known hi]
      exact ih h

theorem stepMultiple_known {n : Nfa} {S T : List Nat} {b : Bool} {w : Word} (h : n.setE S w = some T) :
    (⟨n, S, b⟩ : NfaEval).stepMultiple w = (⟨n, T, b⟩, some ()) := by
  simp [stepMultiple, tryForEach_known h]

theorem stepMultiple_unknown {n : Nfa} {S : List Nat} {b : Bool} {w : Word} (h : n.setE S w = none) :
    ∃ T, (⟨n, S, b⟩ : NfaEval).stepMultiple w = (⟨n, T, true⟩, none) := by
  obtain ⟨r, hr⟩ := tryForEach_unknown (b := b) h
  exact ⟨r, by simp [stepMultiple, hr]⟩

end NfaEval

theorem Nfa.accepts_iff {n : Nfa} (hn : n.WF) (w : Word) : n.accepts w = true ↔ n.Lang w := by
  unfold Nfa.accepts
  rw [NfaEval.new_eq]
  cases hr : n.setE n.iset w with
  | none =>
    obtain ⟨T, hT⟩ := NfaEval.stepMultiple_unknown (b := false) hr
    rw [hT]
    simp only [NfaEval.isAccepting, if_true, Bool.false_eq_true, false_iff]
    intro hl
    rw [Nfa.setE_none] at hr
    obtain ⟨e, h1, h2⟩ := hr
    exact h2 (Nfa.over_of_lang hl e h1)
  | some T =>
    rw [NfaEval.stepMultiple_known hr]
    have := Nfa.isAfter_setE hn (Nfa.isAfter_iset hn) hr
    rw [List.nil_append] at this
    rw [Nfa.lang_iff this]
    simp [NfaEval.isAccepting]

/-! ## Validity as a computable check -/

/-- Computable version of `Nfa.WF`. -/
def Nfa.wfB (n : Nfa) : Bool :=
  decide n.alphabet.Nodup && decide (n.states.map (·.name)).Nodup &&
  n.states.all (fun s => decide (s.transitions.length = n.alphabet.length)) &&
  n.states.all (fun s => s.transitions.all (fun ts => ts.all (fun t => decide (t < n.states.length)))) &&
  n.states.all (fun s => s.epsilonTransitions.all (fun t => decide (t < n.states.length))) &&
  decide (n.initialState < n.states.length) &&
  n.states.zipIdx.all (fun p => p.1.initial == decide (p.2 = n.initialState))

theorem Nfa.wf_of_wfB {n : Nfa} (h : n.wfB = true) : n.WF := by
  simp only [wfB, Bool.and_eq_true, decide_eq_true_eq, List.all_eq_true, beq_iff_eq] at h
  obtain ⟨⟨⟨⟨⟨⟨h1, h2⟩, h3⟩, h4⟩, h7⟩, h5⟩, h6⟩ := h
  refine ⟨h1, h2, h3, h4, h7, h5, ?_⟩
  intro i s hs
  have := h6 (s, i) (by rw [List.mem_zipIdx_iff_getElem?]; exact hs)
  simp only at this
  rw [this, decide_eq_true_eq]

end Dandy
