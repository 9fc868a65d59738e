import Verif.Props.NfaEvaluator
import Verif.Proofs.ToDfa
/-! # C19 subset construction, C20 equivalence of NFAs -/

namespace Dandy
open Samples

/-- **C19** `Nfa::to_dfa` terminates without panicking, with a valid DFA over the same alphabet (same order) that
accepts exactly the same words. -/
theorem C19_to_dfa (n : Nfa) (hn : n.WF) :
    ∃ d, n.toDfa = some d ∧ d.WF ∧ d.alphabet = n.alphabet ∧ (∀ w, d.Lang w ↔ n.Lang w) ∧
      ∀ w, d.accepts w = n.accepts w := by
  obtain ⟨ks, h1, h2⟩ := Nfa.toDfa_eq hn
  have hwf := Nfa.subsetOf_wf hn h2
  refine ⟨_, h1, hwf, rfl, fun w => Nfa.subsetOf_lang hn h2 w, fun w => ?_⟩
  rw [Bool.eq_iff_iff, C01_dfa_accepts_iff _ hwf, C02_nfa_accepts_iff n hn]
  exact Nfa.subsetOf_lang hn h2 w

/-- **C19** The states are named 0, 1, 2, ... in order, state 0 is the initial one, all are reachable, and there are at
most 2^n of them. -/
theorem C19_to_dfa_shape (n : Nfa) (hn : n.WF) (d : Dfa) (h : n.toDfa = some d) :
    d.initialState = 0 ∧ (∀ (i : Nat) (t : DfaState), d.states[i]? = some t → t.name = numStr i) ∧
    (∀ i < d.states.length, ∃ w, d.Run d.initialState w i) ∧ d.states.length ≤ 2 ^ n.states.length := by
  obtain ⟨ks, h1, h2⟩ := Nfa.toDfa_eq hn
  rw [h1] at h
  cases h
  refine ⟨rfl, ?_, Nfa.subsetOf_reachable hn h2, Nfa.subsetOf_length hn h2⟩
  intro i t ht
  simp only [Nfa.subsetOf, List.getElem?_map, Option.map_eq_some_iff, List.getElem?_zipIdx] at ht
  obtain ⟨⟨S, j⟩, ⟨_, _, h4⟩, rfl⟩ := ht
  cases h4
  simp

/-- **C19** Going back and forth: `to_nfa` of the `to_dfa` still accepts the same words. -/
theorem C19_to_dfa_to_nfa (n : Nfa) (hn : n.WF) (d : Dfa) (h : n.toDfa = some d) (w : Word) :
    d.toNfa.accepts w = n.accepts w := by
  obtain ⟨d', h1, h2, _, _, h5⟩ := C19_to_dfa n hn
  rw [h] at h1; cases h1
  rw [(C18_to_nfa_lang d h2 w).2.2, h5]

example : epsNfa.WF ∧ (epsNfa.toDfa).map (fun d => (d.states.length, d.states.map (·.accepting), d.states.map (·.transitions)))
    = some (3, [true, false, true], [[1, 2], [1, 2], [1, 2]]) := ⟨epsNfa_wf, by decide⟩

/-- **C20** `Nfa::equivalent_to` terminates with `true` exactly when the alphabets have the same elements and the languages
are equal. -/
theorem C20_nfa_equivalent_to (n o : Nfa) (hn : n.WF) (ho : o.WF) :
    ∃ b, n.equivalentTo o = some b ∧
      (b = true ↔ SameElems n.alphabet o.alphabet ∧ ∀ w, n.Lang w ↔ o.Lang w) :=
  Nfa.equivalentTo_spec hn ho

example : epsNfa.WF ∧ evenA.WF ∧ epsNfa.equivalentTo evenA = some false ∧ epsNfa.equivalentTo endsB.toNfa = some false ∧
    epsNfa.equivalentTo epsNfa = some true ∧ epsNfa.equivalentTo nfaC = some false :=
  ⟨epsNfa_wf, evenA_wf, by decide, by decide, by decide, by decide⟩

/-! ## Instances of the theorems of this file -/

example := C19_to_dfa Samples.epsNfa Samples.epsNfa_wf
example := C19_to_dfa_shape Samples.epsNfa Samples.epsNfa_wf _ rfl

end Dandy
