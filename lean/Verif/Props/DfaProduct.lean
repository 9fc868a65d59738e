import Verif.Props.Samples
import Verif.Proofs.DfaProduct
/-! # C08-C11, C58, C46: product constructions, equivalence, alphabets, fresh names -/

namespace Dandy
open Samples

/-- **C58** `alphabet_equal` is set equality for duplicate free alphabets. -/
theorem C58_alphabet_equal (a b : List Str) (ha : a.Nodup) (hb : b.Nodup) :
    alphabetEqual a b = true ↔ ∀ e, e ∈ a ↔ e ∈ b := alphabetEqual_iff ha hb

example : alphabetEqual [s 'a', s 'b', s 'c'] [s 'c', s 'a', s 'b'] = true ∧
    alphabetEqual [s 'a', s 'b'] [s 'a', s 'c'] = false := by decide

/-- **C08** The product construction returns `None` exactly when the alphabets differ as sets. It never panics and always
terminates. -/
theorem C08_product_none_iff (ord : List (Nat × Nat) → List (Nat × Nat)) (hord : ∀ l, (ord l).Perm l)
    (d o : Dfa) (hd : d.WF) (ho : o.WF) (comb : DfaState → DfaState → Bool) :
    (∃ r, Dfa.product ord d o comb = some r) ∧
    (Dfa.product ord d o comb = some none ↔ ¬ SameElems d.alphabet o.alphabet) := by
  by_cases h : SameElems d.alphabet o.alphabet
  · obtain ⟨ks, g, h1, _⟩ := Dfa.product_eq hord hd ho h comb
    rw [h1]; simp [h]
  · have : alphabetEqual d.alphabet o.alphabet = false := by
      rw [← Bool.not_eq_true, alphabetEqual_iff hd.alphabet_nodup ho.alphabet_nodup]; exact h
    simp [Dfa.product, this, h]

/-- **C08** Language of the product: a word is accepted iff the combinator holds for the states both DFAs are in after
reading it (so the word has to be over the alphabet). -/
theorem C08_product_lang (ord : List (Nat × Nat) → List (Nat × Nat)) (hord : ∀ l, (ord l).Perm l)
    (d o p : Dfa) (hd : d.WF) (ho : o.WF) (comb : DfaState → DfaState → Bool)
    (hp : Dfa.product ord d o comb = some (some p)) (w : Word) :
    p.alphabet = d.alphabet ∧
    (p.Lang w ↔ ∃ (q1 q2 : Nat) (s1 s2 : DfaState), d.Run d.initialState w q1 ∧ o.Run o.initialState w q2 ∧
      d.states[q1]? = some s1 ∧ o.states[q2]? = some s2 ∧ comb s1 s2 = true) := by
  by_cases h : SameElems d.alphabet o.alphabet
  · obtain ⟨ks, g, h1, hks, hg, _⟩ := Dfa.product_eq hord hd ho h comb
    rw [h1] at hp
    simp only [Option.some.injEq] at hp
    subst hp
    refine ⟨rfl, ?_⟩
    rw [Dfa.prodOf_lang hd ho h hks hg]
    constructor
    · rintro ⟨q1, q2, h2, h3, h4⟩
      have l1 := Dfa.runE_lt hd hd.init_lt h2
      have l2 := Dfa.runE_lt ho ho.init_lt h3
      exact ⟨q1, q2, _, _, (Dfa.run_iff hd hd.init_lt).2 h2, (Dfa.run_iff ho ho.init_lt).2 h3,
        Dfa.getElem?_state l1, Dfa.getElem?_state l2, h4⟩
    · rintro ⟨q1, q2, s1, s2, h2, h3, h4, h5, h6⟩
      refine ⟨q1, q2, (Dfa.run_iff hd hd.init_lt).1 h2, (Dfa.run_iff ho ho.init_lt).1 h3, ?_⟩
      rw [Dfa.state_of_getElem? h4, Dfa.state_of_getElem? h5]; exact h6
  · have := ((C08_product_none_iff ord hord d o hd ho comb).2).2 h
    rw [this] at hp; cases hp

/-- **C10** The product is a valid DFA (in particular: distinct names for every hash iteration order, exactly one initial
state, existing targets), all its states are reachable, and it has at most `|A|·|B|` states. -/
theorem C10_product_wf (ord : List (Nat × Nat) → List (Nat × Nat)) (hord : ∀ l, (ord l).Perm l)
    (d o p : Dfa) (hd : d.WF) (ho : o.WF) (comb : DfaState → DfaState → Bool)
    (hp : Dfa.product ord d o comb = some (some p)) :
    p.WF ∧ (∀ i < p.states.length, ∃ w, p.Run p.initialState w i) ∧
    p.states.length ≤ d.states.length * o.states.length := by
  by_cases h : SameElems d.alphabet o.alphabet
  · obtain ⟨ks, g, h1, hks, hg, _⟩ := Dfa.product_eq hord hd ho h comb
    rw [h1] at hp
    simp only [Option.some.injEq] at hp
    subst hp
    exact ⟨Dfa.prodOf_wf hd h hks hg, Dfa.prodOf_reachable hd h hks hg, Dfa.prodOf_length hd ho hks⟩
  · have := ((C08_product_none_iff ord hord d o hd ho comb).2).2 h
    rw [this] at hp; cases hp

/-- A name collision of the pair names: `a` with `b,c` and `a,b` with `c` both give `(a,b,c)`. -/
def collisionL : Dfa :=
  { alphabet := [s 'x'],
    states := [⟨"a".toList, true, true, [1]⟩, ⟨"a,b".toList, false, false, [0]⟩], initialState := 0 }
/-- See `collisionL`. -/
def collisionR : Dfa :=
  { alphabet := [s 'x'],
    states := [⟨"b,c".toList, true, true, [1]⟩, ⟨"c".toList, false, false, [0]⟩], initialState := 0 }

example : collisionL.WF ∧ collisionR.WF ∧
    (Dfa.product List.reverse oddA endsB (fun a b => a.accepting && !b.accepting)).map (·.map (fun p => p.states.map (·.name)))
      = some (some ["(e,n)".toList, "(e,y)".toList, "(o,n)".toList, "(o,y)".toList]) ∧
    (Dfa.product id collisionL collisionR (fun a _ => a.accepting)).map (·.map (fun p => p.states.map (·.name)))
      = some (some [s '0', s '1']) :=
  ⟨Dfa.wf_of_wfB (by decide), Dfa.wf_of_wfB (by decide), by decide, by decide⟩

/-- A language combined from two languages over the alphabet of the first DFA by a Boolean operation. -/
private theorem op_lang (ord : List (Nat × Nat) → List (Nat × Nat)) (hord : ∀ l, (ord l).Perm l)
    (d o : Dfa) (hd : d.WF) (ho : o.WF) (f : Bool → Bool → Bool) (P : Prop → Prop → Prop)
    (hP : ∀ (a b : Bool), f a b = true ↔ P (a = true) (b = true)) (h : SameElems d.alphabet o.alphabet) :
    ∃ p, Dfa.product ord d o (fun s1 s2 => f s1.accepting s2.accepting) = some (some p) ∧ p.WF ∧
      p.alphabet = d.alphabet ∧ ∀ w, Over d.alphabet w → (p.Lang w ↔ P (d.Lang w) (o.Lang w)) := by
  obtain ⟨ks, g, h1, hks, hg, _⟩ := Dfa.product_eq hord hd ho h (fun s1 s2 => f s1.accepting s2.accepting)
  refine ⟨_, h1, Dfa.prodOf_wf hd h hks hg, rfl, ?_⟩
  intro w hw
  rw [Dfa.prodOf_lang hd ho h hks hg, Dfa.lang_iff hd, Dfa.lang_iff ho]
  obtain ⟨q1, h2⟩ := Dfa.runE_exists (d := d) d.initialState hw
  obtain ⟨q2, h3⟩ := Dfa.runE_exists (d := o) o.initialState (fun e he => (h e).1 (hw e he))
  simp only [h2, h3, Option.some.injEq]
  constructor
  · rintro ⟨_, _, rfl, rfl, h4⟩
    simpa using (hP _ _).1 h4
  · intro h4
    exact ⟨_, _, rfl, rfl, (hP _ _).2 (by simpa using h4)⟩

/-- **C09** union, intersection, difference and symmetric difference of DFAs. `None` iff the alphabets differ; otherwise
the words of the result are exactly the expected combination. -/
theorem C09_dfa_set_operations (ord : List (Nat × Nat) → List (Nat × Nat)) (hord : ∀ l, (ord l).Perm l)
    (d o : Dfa) (hd : d.WF) (ho : o.WF) :
    (¬ SameElems d.alphabet o.alphabet →
      Dfa.union ord d o = some none ∧ Dfa.intersection ord d o = some none ∧
      Dfa.difference ord d o = some none ∧ Dfa.symmetricDifference ord d o = some none) ∧
    (SameElems d.alphabet o.alphabet →
      (∃ p, Dfa.union ord d o = some (some p) ∧ p.WF ∧ p.alphabet = d.alphabet ∧
        ∀ w, p.Lang w ↔ d.Lang w ∨ o.Lang w) ∧
      (∃ p, Dfa.intersection ord d o = some (some p) ∧ p.WF ∧ p.alphabet = d.alphabet ∧
        ∀ w, p.Lang w ↔ d.Lang w ∧ o.Lang w) ∧
      (∃ p, Dfa.difference ord d o = some (some p) ∧ p.WF ∧ p.alphabet = d.alphabet ∧
        ∀ w, p.Lang w ↔ d.Lang w ∧ ¬ o.Lang w) ∧
      (∃ p, Dfa.symmetricDifference ord d o = some (some p) ∧ p.WF ∧ p.alphabet = d.alphabet ∧
        ∀ w, p.Lang w ↔ ¬ (d.Lang w ↔ o.Lang w))) := by
  constructor
  · intro h
    exact ⟨(C08_product_none_iff ord hord d o hd ho _).2.2 h, (C08_product_none_iff ord hord d o hd ho _).2.2 h,
      (C08_product_none_iff ord hord d o hd ho _).2.2 h, (C08_product_none_iff ord hord d o hd ho _).2.2 h⟩
  · intro h
    -- all languages involved only contain words over the alphabet
    have hov : ∀ (p : Dfa), p.WF → p.alphabet = d.alphabet → ∀ w, p.Lang w → Over d.alphabet w := by
      intro p hp ha w hw; rw [← ha]; exact Dfa.over_of_lang hp hw
    have hovd : ∀ w, d.Lang w → Over d.alphabet w := fun w hw => Dfa.over_of_lang hd hw
    have hovo : ∀ w, o.Lang w → Over d.alphabet w := fun w hw e he => (h e).2 (Dfa.over_of_lang ho hw e he)
    refine ⟨?_, ?_, ?_, ?_⟩
    · obtain ⟨p, h1, h2, h3, h4⟩ := op_lang ord hord d o hd ho (· || ·) (· ∨ ·) (by decide) h
      refine ⟨p, h1, h2, h3, fun w => ⟨fun hw => (h4 w (hov p h2 h3 w hw)).1 hw, fun hw => ?_⟩⟩
      rcases hw with hw | hw
      · exact (h4 w (hovd w hw)).2 (Or.inl hw)
      · exact (h4 w (hovo w hw)).2 (Or.inr hw)
    · obtain ⟨p, h1, h2, h3, h4⟩ := op_lang ord hord d o hd ho (· && ·) (· ∧ ·) (by decide) h
      exact ⟨p, h1, h2, h3, fun w => ⟨fun hw => (h4 w (hov p h2 h3 w hw)).1 hw,
        fun hw => (h4 w (hovd w hw.1)).2 hw⟩⟩
    · obtain ⟨p, h1, h2, h3, h4⟩ := op_lang ord hord d o hd ho (fun a b => a && !b) (fun a b => a ∧ ¬ b) (by decide) h
      exact ⟨p, h1, h2, h3, fun w => ⟨fun hw => (h4 w (hov p h2 h3 w hw)).1 hw,
        fun hw => (h4 w (hovd w hw.1)).2 hw⟩⟩
    · obtain ⟨p, h1, h2, h3, h4⟩ := op_lang ord hord d o hd ho (· != ·) (fun a b => ¬ (a ↔ b)) (by decide) h
      refine ⟨p, h1, h2, h3, fun w => ⟨fun hw => (h4 w (hov p h2 h3 w hw)).1 hw, fun hw => ?_⟩⟩
      by_cases hdw : d.Lang w
      · exact (h4 w (hovd w hdw)).2 hw
      · by_cases how : o.Lang w
        · exact (h4 w (hovo w how)).2 hw
        · exact absurd (iff_of_false hdw how) hw

example : SameElems oddA.alphabet endsB.alphabet ∧ oddA.alphabet ≠ endsB.alphabet ∧
    ((Dfa.difference id oddA endsB).map (·.map (·.accepts [s 'b', s 'a']))) = some (some true) ∧
    ((Dfa.difference id oddA endsB).map (·.map (·.accepts [s 'a', s 'b']))) = some (some false) ∧
    Dfa.union id oddA overC = some none := by
  refine ⟨?_, by decide, by decide, by decide, by decide⟩
  rw [← alphabetEqual_iff oddA_wf.alphabet_nodup endsB_wf.alphabet_nodup]; decide

/-- **C11** `Dfa::equivalent_to` terminates and decides "same alphabet set and same language". -/
theorem C11_dfa_equivalent_to (d o : Dfa) (hd : d.WF) (ho : o.WF) :
    (∃ b, Dfa.equivalentTo d o = some b) ∧
    (Dfa.equivalentTo d o = some true ↔ SameElems d.alphabet o.alphabet ∧ ∀ w, d.Lang w ↔ o.Lang w) := by
  obtain ⟨b, h1, h2⟩ := Dfa.equivalentTo_spec hd ho
  rw [h1]
  exact ⟨⟨b, rfl⟩, by simpa using h2⟩

example : Dfa.equivalentTo oddA endsB = some false ∧ Dfa.equivalentTo oddA oddA.invert.invert = some true ∧
    Dfa.equivalentTo oddA overC = some false := by decide

/-- **C46** The name invented by `fresh_name` is not used by any state, whatever the existing names; it is the wanted
name when that is free. -/
theorem C46_fresh_name (names : List Str) (wanted : Str) :
    Nfa.freshName names wanted ∉ names ∧ (wanted ∉ names → Nfa.freshName names wanted = wanted) := by
  refine ⟨(freshName_spec names wanted).1, fun h => by simp [Nfa.freshName, h]⟩

example : Nfa.freshName ["s_new".toList, "0".toList, "2".toList, "1".toList] Nfa.sNew = "3".toList := by decide

/-! ## Instances of the theorems of this file -/

example := C08_product_none_iff List.reverse (fun l => List.reverse_perm l) Samples.redundant Samples.oddA Samples.redundant_wf
  Samples.oddA_wf (fun p q => p.accepting && !q.accepting)
example := C08_product_lang List.reverse (fun l => List.reverse_perm l) Samples.redundant Samples.oddA _ Samples.redundant_wf
  Samples.oddA_wf (fun p q => p.accepting && !q.accepting) rfl [Samples.s 'b', Samples.s 'a']

end Dandy
