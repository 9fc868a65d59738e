import Mathlib.Computability.DFA
import Mathlib.Computability.MyhillNerode
import Mathlib.Algebra.BigOperators.Fin
import Mathlib.Data.Set.Card
import Verif.Proofs.RegexPrint
import Verif.Proofs.Regex
import Verif.Proofs.Names
import Verif.Props.DfaMinimize
/-! # Regular languages -/

namespace Dandy

/-! ## Systems of equations between languages -/

/-- Languages with an expression over the elements of `A`. -/
def Expressible (A : List Str) (L : Language Str) : Prop := ∃ t : RegexTree, t.Proper ∧ (∀ g ∈ t.graphemes, g ∈ A) ∧ t.denote = L

namespace Expressible
variable {A : List Str} {L M : Language Str}

theorem zero : Expressible A 0 := ⟨.chr .empty, by simp [RegexTree.Proper], by simp [RegexTree.graphemes], by simp [RegexTree.denote]⟩

theorem one : Expressible A 1 := ⟨.chr .epsilon, by simp [RegexTree.Proper], by simp [RegexTree.graphemes], by simp [RegexTree.denote]⟩

theorem single {e : Str} (h : e ∈ A) : Expressible A {[e]} :=
  ⟨.chr (.grapheme e), by simp [RegexTree.Proper], by simpa [RegexTree.graphemes] using h, by simp [RegexTree.denote]⟩

theorem add (hL : Expressible A L) (hM : Expressible A M) : Expressible A (L + M) := by
  obtain ⟨t, h1, h2, h3⟩ := hL
  obtain ⟨u, g1, g2, g3⟩ := hM
  refine ⟨.alt [t, u], by simp [RegexTree.Proper, RegexTree.ProperList, h1, g1], ?_, by simp [RegexTree.denote, RegexTree.denoteAlt, h3, g3]⟩
  intro g hg
  simp only [RegexTree.graphemes, RegexTree.graphemesList, List.append_nil, List.mem_append] at hg
  exact hg.elim (h2 g) (g2 g)

theorem mul (hL : Expressible A L) (hM : Expressible A M) : Expressible A (L * M) := by
  obtain ⟨t, h1, h2, h3⟩ := hL
  obtain ⟨u, g1, g2, g3⟩ := hM
  refine ⟨.seq [t, u], by simp [RegexTree.Proper, RegexTree.ProperList, h1, g1], ?_, by simp [RegexTree.denote, RegexTree.denoteSeq, h3, g3]⟩
  intro g hg
  simp only [RegexTree.graphemes, RegexTree.graphemesList, List.append_nil, List.mem_append] at hg
  exact hg.elim (h2 g) (g2 g)

theorem star (hL : Expressible A L) : Expressible A (KStar.kstar L) := by
  obtain ⟨t, h1, h2, h3⟩ := hL
  exact ⟨.rep t, by simpa [RegexTree.Proper] using h1, by simpa [RegexTree.graphemes] using h2, by simp [RegexTree.denote, h3]⟩

theorem sum {ι : Type} (s : Finset ι) (f : ι → Language Str) (h : ∀ i ∈ s, Expressible A (f i)) : Expressible A (∑ i ∈ s, f i) := by
  classical
  induction s using Finset.induction_on with
  | empty => simpa using zero
  | insert i s hi ih =>
    rw [Finset.sum_insert hi]
    exact (h i (by simp)).add (ih fun j hj => h j (by simp [hj]))

end Expressible

theorem nil_not_mem_mul {L M : Language Str} (h : [] ∉ L) : [] ∉ L * M := by
  rintro h1
  obtain ⟨a, ha, b, _, hab⟩ := Language.mem_mul.1 h1
  have := List.append_eq_nil_iff.1 hab
  exact h (this.1 ▸ ha)

/-- Solving a system by eliminating one unknown after the other. -/
theorem solve {A : List Str} : ∀ (n : Nat) (a : Fin n → Fin n → Language Str) (b X : Fin n → Language Str),
    (∀ i j, Expressible A (a i j)) → (∀ i j, [] ∉ a i j) → (∀ i, Expressible A (b i)) →
    (∀ i, X i = ∑ j, a i j * X j + b i) → ∀ i, Expressible A (X i)
  | 0, _, _, _, _, _, _, _ => fun i => i.elim0
  | n + 1, a, b, X, ha, hn, hb, hX => by
    let k := Fin.last n
    have hk : X k = KStar.kstar (a k k) * (∑ j : Fin n, a k j.castSucc * X j.castSucc + b k) := by
      rw [← Language.self_eq_mul_add_iff (hn k k)]
      conv_lhs => rw [hX k, Fin.sum_univ_castSucc]
      rw [add_comm (∑ j : Fin n, _) _, add_assoc]
    have ih := solve n (fun i j => a i.castSucc j.castSucc + a i.castSucc k * (KStar.kstar (a k k) * a k j.castSucc))
      (fun i => a i.castSucc k * (KStar.kstar (a k k) * b k) + b i.castSucc) (fun i => X i.castSucc)
      (fun i j => (ha _ _).add ((ha _ _).mul ((ha _ _).star.mul (ha _ _))))
      (fun i j h => (Language.mem_add _ _ _).1 h |>.elim (hn _ _) (nil_not_mem_mul (hn _ _)))
      (fun i => ((ha _ _).mul ((ha _ _).star.mul (hb _))).add (hb _))
      (fun i => by
        conv_lhs => rw [hX i.castSucc, Fin.sum_univ_castSucc]
        change _ + a i.castSucc k * X k + b i.castSucc = _
        rw [hk]
        simp only [add_mul, mul_add, mul_assoc, Finset.sum_add_distrib, Finset.mul_sum]
        simp only [add_assoc])
    intro i
    induction i using Fin.lastCases with
    | cast i => exact ih i
    | last =>
      change Expressible A (X k)
      rw [hk]
      exact (ha _ _).star.mul ((Expressible.sum _ _ fun j _ => (ha _ _).mul (ih j)).add (hb _))

/-- What a DFA of Mathlib accepts over the elements of `A` has an expression. -/
theorem expressible_of_dfa {A : List Str} {n : Nat} (M : DFA Str (Fin n)) (q : Fin n) :
    Expressible A {w | w ∈ M.acceptsFrom q ∧ Over A w} := by
  classical
  refine solve (A := A) n (fun i j => ∑ e ∈ A.toFinset.filter (fun e => M.step i e = j), {[e]})
    (fun i => if i ∈ M.accept then 1 else 0) (fun q => {w | w ∈ M.acceptsFrom q ∧ Over A w}) ?_ ?_ ?_ ?_ q
  · intro i j
    exact Expressible.sum _ _ fun e he => .single (by simpa using (Finset.mem_filter.1 he).1)
  · intro i j
    have : ∀ s : Finset Str, [] ∉ ∑ e ∈ s, ({[e]} : Language Str) := by
      intro s
      induction s using Finset.induction_on with
      | empty => simp
      | insert e s he ih =>
        rw [Finset.sum_insert he]
        intro h
        rcases (Language.mem_add _ _ _).1 h with h | h
        · cases h
        · exact ih h
    exact this _
  · intro i
    split
    · exact .one
    · exact .zero
  · intro i
    have hmem : ∀ (s : Finset Str) (w : Word), w ∈ ∑ e ∈ s, ({[e]} : Language Str) ↔ ∃ e ∈ s, w = [e] := by
      intro s w
      induction s using Finset.induction_on with
      | empty => simp
      | insert e s he ih =>
        rw [Finset.sum_insert he, Language.mem_add, ih]
        simp only [Finset.mem_insert, exists_eq_or_imp]
        rfl
    have hsum : ∀ (s : Finset (Fin n)) (f : Fin n → Language Str) (w : Word), w ∈ ∑ j ∈ s, f j ↔ ∃ j ∈ s, w ∈ f j := by
      intro s f w
      induction s using Finset.induction_on with
      | empty => simp
      | insert e s he ih =>
        rw [Finset.sum_insert he, Language.mem_add, ih]
        simp
    ext w
    rw [Language.mem_add, hsum]
    cases w with
    | nil =>
      constructor
      · rintro ⟨h, _⟩
        right
        have h : i ∈ M.accept := h
        rw [if_pos h]; exact rfl
      · rintro (⟨j, _, h⟩ | h)
        · obtain ⟨a, ha, b, _, hab⟩ := Language.mem_mul.1 h
          obtain ⟨e, _, rfl⟩ := (hmem _ _).1 ha
          simp at hab
        · split at h
          · rename_i hi
            exact ⟨hi, by simp [Over]⟩
          · exact absurd h (Language.notMem_zero _)
    | cons e w =>
      constructor
      · rintro ⟨h, ho⟩
        left
        refine ⟨M.step i e, by simp, Language.mem_mul.2 ⟨[e], (hmem _ _).2 ⟨e, ?_, rfl⟩, w, ⟨h, fun x hx => ho x (by simp [hx])⟩, rfl⟩⟩
        simpa using ho e (by simp)
      · rintro (⟨j, _, h⟩ | h)
        · obtain ⟨a, ha, b, ⟨hb, ho⟩, hab⟩ := Language.mem_mul.1 h
          obtain ⟨e', he', rfl⟩ := (hmem _ _).1 ha
          cases hab
          obtain ⟨h1, rfl⟩ := Finset.mem_filter.1 he'
          refine ⟨hb, fun x hx => ?_⟩
          rcases List.mem_cons.1 hx with rfl | hx
          · simpa using h1
          · exact ho x hx
        · split at h
          · cases h
          · exact absurd h (Language.notMem_zero _)

/-! ## From a DFA of Mathlib to a DFA of the library -/

/-- The table of a DFA of Mathlib; the states are named by numbers. Not a part of the program. -/
noncomputable def tableOf (A : List Str) {n : Nat} (M : DFA Str (Fin n)) : Dfa :=
  open Classical in
  { alphabet := A,
    states := List.ofFn (fun i : Fin n => ⟨Nat.toDigits 10 i.val, decide (i = M.start), decide (i ∈ M.accept), A.map (fun e => (M.step i e).val)⟩),
    initialState := M.start.val }

theorem tableOf_get {A : List Str} {n : Nat} (M : DFA Str (Fin n)) (i : Fin n) : ∃ s, (tableOf A M).states[i.val]? = some s ∧
    s.name = Nat.toDigits 10 i.val ∧ (s.initial = true ↔ i = M.start) ∧ (s.accepting = true ↔ i ∈ M.accept) ∧
    s.transitions = A.map (fun e => (M.step i e).val) := by
  classical
  refine ⟨_, by rw [tableOf, List.getElem?_ofFn, dif_pos i.isLt], rfl, ?_, ?_, rfl⟩ <;> simp

theorem tableOf_length {A : List Str} {n : Nat} (M : DFA Str (Fin n)) : (tableOf A M).states.length = n := by simp [tableOf]

theorem tableOf_mem {A : List Str} {n : Nat} {M : DFA Str (Fin n)} {s : DfaState} (h : s ∈ (tableOf A M).states) :
    ∃ i : Fin n, s.name = Nat.toDigits 10 i.val ∧ s.transitions = A.map (fun e => (M.step i e).val) := by
  obtain ⟨i, rfl⟩ := (List.mem_ofFn' _ _).1 h
  exact ⟨i, rfl, rfl⟩

theorem tableOf_wf {A : List Str} {n : Nat} (hA : A.Nodup) (M : DFA Str (Fin n)) : (tableOf A M).WF where
  alphabet_nodup := hA
  names_nodup := by
    have : (tableOf A M).states.map (·.name) = List.ofFn (fun i : Fin n => Nat.toDigits 10 i.val) := by
      simp [tableOf, List.map_ofFn, Function.comp_def]
    rw [this]
    apply List.nodup_ofFn.2
    intro i j h
    exact Fin.ext (numStr_inj h)
  row_len := fun s hs => by
    obtain ⟨i, _, h⟩ := tableOf_mem hs
    rw [h, List.length_map]; rfl
  targets := fun s hs t ht => by
    obtain ⟨i, _, h⟩ := tableOf_mem hs
    rw [h] at ht
    obtain ⟨e, _, rfl⟩ := List.mem_map.1 ht
    rw [tableOf_length]; exact (M.step i e).isLt
  init_lt := by rw [tableOf_length]; exact M.start.isLt
  init_flag := fun i s h => by
    have hi := (List.getElem?_eq_some_iff.1 h).1
    rw [tableOf_length] at hi
    obtain ⟨s', h', _, h2, _⟩ := tableOf_get (A := A) M ⟨i, hi⟩
    rw [h] at h'; cases h'
    rw [h2]
    exact ⟨fun e => congrArg Fin.val e, fun e => Fin.ext e⟩

theorem tableOf_run {A : List Str} {n : Nat} (M : DFA Str (Fin n)) : ∀ (w : Word) (q : Fin n) (r : Nat),
    (tableOf A M).Run q.val w r ↔ Over A w ∧ r = (M.evalFrom q w).val
  | [], q, r => by
    constructor
    · intro h; cases h; exact ⟨by simp [Over], rfl⟩
    · rintro ⟨_, rfl⟩; exact .nil _
  | e :: w, q, r => by
    obtain ⟨s, hs, _, _, _, ht⟩ := tableOf_get (A := A) M q
    constructor
    · intro h
      cases h with
      | @cons _ i t _ _ _ s' h1 h2 h3 h4 =>
        rw [hs] at h1; cases h1
        rw [ht, List.getElem?_map, show A[i]? = some e from h2] at h3
        cases h3
        obtain ⟨h5, rfl⟩ := (tableOf_run M w _ r).1 h4
        refine ⟨fun x hx => ?_, rfl⟩
        rcases List.mem_cons.1 hx with rfl | hx
        · exact List.mem_of_getElem? h2
        · exact h5 x hx
    · rintro ⟨ho, rfl⟩
      obtain ⟨i, hi⟩ := List.mem_iff_getElem?.1 (ho e (by simp))
      exact .cons hs hi (by rw [ht, List.getElem?_map, hi]; rfl)
        ((tableOf_run M w (M.step q e) _).2 ⟨fun x hx => ho x (by simp [hx]), rfl⟩)

theorem tableOf_lang {A : List Str} {n : Nat} (M : DFA Str (Fin n)) (w : Word) : (tableOf A M).Lang w ↔ w ∈ M.accepts ∧ Over A w := by
  constructor
  · rintro ⟨q, h1, s, h2, h3⟩
    obtain ⟨ho, rfl⟩ := (tableOf_run M w M.start q).1 h1
    obtain ⟨s', h', _, _, h4, _⟩ := tableOf_get (A := A) M (M.evalFrom M.start w)
    rw [h2] at h'; cases h'
    exact ⟨h4.1 h3, ho⟩
  · rintro ⟨h, ho⟩
    obtain ⟨s', h', _, _, h4, _⟩ := tableOf_get (A := A) M (M.evalFrom M.start w)
    exact ⟨_, (tableOf_run M w M.start _).2 ⟨ho, rfl⟩, s', h', h4.2 h⟩

/-! ## From a DFA of the library to a DFA of Mathlib -/

/-- The transition with an element, if there is one. -/
def Dfa.next (d : Dfa) (q : Nat) (e : Str) : Option Nat :=
  (d.states[q]?).bind (fun s => if e ∈ d.alphabet then s.transitions[d.alphabet.idxOf e]? else none)

theorem Dfa.next_iff {d : Dfa} (hd : d.WF) {q t : Nat} {e : Str} : d.next q e = some t ↔
    ∃ (s : DfaState) (i : Nat), d.states[q]? = some s ∧ d.alphabet[i]? = some e ∧ s.transitions[i]? = some t := by
  unfold Dfa.next
  constructor
  · intro h
    obtain ⟨s, hs, h⟩ := Option.bind_eq_some_iff.1 h
    split at h
    · rename_i he
      exact ⟨s, _, hs, by rw [List.getElem?_eq_getElem (List.idxOf_lt_length_of_mem he)]; simp, h⟩
    · cases h
  · rintro ⟨s, i, hs, hi, ht⟩
    rw [hs, Option.bind_some, if_pos (List.mem_of_getElem? hi)]
    have hlt := (List.getElem?_eq_some_iff.1 hi).1
    have : d.alphabet.idxOf e = i := by
      have e1 := (List.getElem?_eq_some_iff.1 hi).2
      rw [← e1]
      exact hd.alphabet_nodup.idxOf_getElem i hlt
    rw [this, ht]

/-- The same automaton with a state more, from which nothing is accepted. -/
def Dfa.mathlib (d : Dfa) : DFA Str (Option (Fin d.states.length)) where
  step o e := o.bind (fun q => (d.next q.val e).bind (fun t => if h : t < d.states.length then some ⟨t, h⟩ else none))
  start := if h : d.initialState < d.states.length then some ⟨_, h⟩ else none
  accept := {o | ∃ q, o = some q ∧ d.Acc q.val}

theorem Dfa.mathlib_none {d : Dfa} : ∀ w, d.mathlib.evalFrom none w = none
  | [] => rfl
  | e :: w => by rw [DFA.evalFrom_cons]; exact Dfa.mathlib_none w

theorem Dfa.mathlib_run {d : Dfa} (hd : d.WF) : ∀ (w : Word) (q r : Fin d.states.length),
    d.mathlib.evalFrom (some q) w = some r ↔ d.Run q.val w r.val
  | [], q, r => by
    simp only [DFA.evalFrom_nil, Option.some.injEq]
    constructor
    · rintro rfl; exact .nil _
    · intro h
      have : ∀ {a b : Nat}, d.Run a [] b → a = b := fun h => by cases h; rfl
      exact Fin.ext (this h)
  | e :: w, q, r => by
    rw [DFA.evalFrom_cons]
    have hstep : d.mathlib.step (some q) e = (d.next q.val e).bind (fun t => if h : t < d.states.length then some ⟨t, h⟩ else none) := rfl
    constructor
    · intro h
      cases hn : d.next q.val e with
      | none => rw [hstep, hn, Option.bind_none, Dfa.mathlib_none] at h; cases h
      | some t =>
        rw [hstep, hn, Option.bind_some] at h
        split at h
        · rename_i ht
          obtain ⟨s, i, h1, h2, h3⟩ := (Dfa.next_iff hd).1 hn
          exact .cons h1 h2 h3 ((Dfa.mathlib_run hd w ⟨t, ht⟩ r).1 h)
        · rw [Dfa.mathlib_none] at h; cases h
    · intro h
      cases h with
      | @cons _ i t _ _ _ s h1 h2 h3 h4 =>
        have ht := hd.targets s (List.mem_of_getElem? h1) t (List.mem_of_getElem? h3)
        rw [hstep, (Dfa.next_iff hd).2 ⟨s, i, h1, h2, h3⟩, Option.bind_some, dif_pos ht]
        exact (Dfa.mathlib_run hd w ⟨t, ht⟩ r).2 h4

theorem Dfa.mathlib_accepts {d : Dfa} (hd : d.WF) (w : Word) : w ∈ d.mathlib.accepts ↔ d.Lang w := by
  have hs : d.mathlib.start = some ⟨_, hd.init_lt⟩ := by simp only [Dfa.mathlib]; rw [dif_pos hd.init_lt]
  change d.mathlib.evalFrom d.mathlib.start w ∈ d.mathlib.accept ↔ _
  rw [hs]
  constructor
  · rintro ⟨q, h, ha⟩
    exact ⟨q.val, (Dfa.mathlib_run hd w _ q).1 h, ha⟩
  · rintro ⟨q, h, ha⟩
    have hq : q < d.states.length := by obtain ⟨s, h1, _⟩ := ha; exact (List.getElem?_eq_some_iff.1 h1).1
    exact ⟨⟨q, hq⟩, (Dfa.mathlib_run hd w _ ⟨q, hq⟩).2 h, ha⟩

theorem Dfa.regular {d : Dfa} (hd : d.WF) : Language.IsRegular ({w | d.Lang w} : Language Str) :=
  ⟨_, inferInstance, d.mathlib, by ext w; exact Dfa.mathlib_accepts hd w⟩

theorem Dfa.run_over {d : Dfa} {q r : Nat} {w : Word} (h : d.Run q w r) : Over d.alphabet w := by
  induction h with
  | nil => simp [Over]
  | cons _ h2 _ _ ih =>
    intro x hx
    rcases List.mem_cons.1 hx with rfl | hx
    · exact List.mem_of_getElem? h2
    · exact ih x hx

theorem regular_fin {L : Language Str} (h : L.IsRegular) : ∃ n, ∃ M : DFA Str (Fin n), M.accepts = L := by
  obtain ⟨σ, _, M, rfl⟩ := h
  exact ⟨_, DFA.reindex (Fintype.equivFin σ) M, DFA.accepts_reindex M _⟩

/-! ## Left quotients -/

namespace Regular

theorem run_total {d : Dfa} (hd : d.WF) : ∀ (w : Word) (q : Nat), q < d.states.length → Over d.alphabet w →
    ∃ r, d.Run q w r ∧ r < d.states.length
  | [], q, hq, _ => ⟨q, .nil q, hq⟩
  | e :: w, q, hq, ho => by
    obtain ⟨i, hi⟩ := List.mem_iff_getElem?.1 (ho e (by simp))
    have hs := List.getElem?_eq_getElem hq
    have hm : d.states[q] ∈ d.states := List.getElem_mem hq
    have hlt : i < d.states[q].transitions.length := by
      rw [hd.row_len _ hm]; exact (List.getElem?_eq_some_iff.1 hi).1
    obtain ⟨r, h1, h2⟩ := run_total hd w d.states[q].transitions[i] (hd.targets _ hm _ (List.getElem_mem hlt)) fun x hx => ho x (by simp [hx])
    exact ⟨r, .cons hs hi (List.getElem?_eq_getElem hlt) h1, h2⟩

theorem run_append {d : Dfa} {q r : Nat} {u : Word} (h : d.Run q u r) (v : Word) (t : Nat) (hr : d.Run r v t) : d.Run q (u ++ v) t := by
  induction h with
  | nil => exact hr
  | cons h1 h2 h3 _ ih => exact .cons h1 h2 h3 (ih hr)

theorem run_split {d : Dfa} (hd : d.WF) {q r : Nat} {u : Word} (h : d.Run q u r) {v : Word} {t : Nat} (ht : d.Run q (u ++ v) t) : d.Run r v t := by
  induction h with
  | nil => exact ht
  | @cons q i t' r e w s h1 h2 h3 _ ih =>
    cases ht with
    | @cons _ i' t2 _ _ _ s' g1 g2 g3 g4 =>
      rw [h1] at g1; cases g1
      have : i = i' := (List.getElem?_inj (List.getElem?_eq_some_iff.1 h2).1 hd.alphabet_nodup).1 (h2.trans g2.symm)
      subst this
      rw [h3] at g3; cases g3
      exact ih g4

/-- The words accepted from a state. -/
def after (d : Dfa) (q : Nat) : Language Str := {v | ∃ r, d.Run q v r ∧ d.Acc r}

theorem quotient {d : Dfa} (hd : d.WF) {u : Word} {q : Nat} (h : d.Run d.initialState u q) :
    Language.leftQuotient ({w | d.Lang w} : Language Str) u = after d q := by
  ext v
  constructor
  · rintro ⟨r, h1, h2⟩
    exact ⟨r, run_split hd h h1, h2⟩
  · rintro ⟨r, h1, h2⟩
    exact ⟨r, run_append h v r h1, h2⟩

theorem count {d : Dfa} (hd : d.WF) (hreach : ∀ q < d.states.length, ∃ w, d.Run d.initialState w q)
    (hred : ∀ p < d.states.length, ∀ q < d.states.length, d.Indist p q → p = q) :
    ((Language.leftQuotient ({w | d.Lang w} : Language Str)) '' {u | Over d.alphabet u}).ncard = d.states.length := by
  have h1 : (Language.leftQuotient ({w | d.Lang w} : Language Str)) '' {u | Over d.alphabet u} =
      (fun q : Fin d.states.length => after d q.val) '' Set.univ := by
    ext L
    constructor
    · rintro ⟨u, hu, rfl⟩
      obtain ⟨q, h1, h2⟩ := run_total hd u _ hd.init_lt hu
      exact ⟨⟨q, h2⟩, trivial, (quotient hd h1).symm⟩
    · rintro ⟨q, _, rfl⟩
      obtain ⟨u, hu⟩ := hreach q.val q.isLt
      exact ⟨u, Dfa.run_over hu, quotient hd hu⟩
  rw [h1, Set.ncard_image_of_injective]
  · simp [Set.ncard_univ]
  · intro p q h
    apply Fin.ext
    apply hred p.val p.isLt q.val q.isLt
    intro w
    exact iff_of_eq (congrArg (fun L : Language Str => w ∈ L) h)

end Regular
end Dandy
