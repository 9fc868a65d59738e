import Verif.Proofs.History
import Verif.Props.Tables
import Verif.Props.Regex
/-! # C44, C45: what holds for every automaton a program can obtain -/

namespace Dandy
open Samples TableText

/-- **C44** Every automaton obtained from tables and regular expressions read from texts, by any sequence of operations, is
valid. -/
theorem C44_valid (x : Dfa ⊕ Nfa) (h : Obtained DfaRead (fun n => NfaRead n ∨ RegexRead n) x) :
    match x with | .inl d => d.WF | .inr n => n.WF := by
  have := obtained_good (P := fun _ => True) (Q := fun _ => True) true_closed (srcD := DfaRead)
    (srcN := fun n => NfaRead n ∨ RegexRead n)
    (fun d ⟨t, p, h1, h2⟩ => ⟨(C40_parsed t p d h1 h2).1, fun _ _ => trivial, trivial⟩)
    (fun n hn => ⟨by
      rcases hn with ⟨t, p, h1, h2⟩ | ⟨cl, text, t, _, rfl⟩
      · exact (C41_parsed t p n h1 h2).1
      · exact C35_to_nfa_valid t, fun _ _ => trivial, trivial⟩) h
  cases x <;> exact this.1

/-- **C44** No operation of such a history panics or fails to terminate: on valid automata all of them return. -/
theorem C44_total (d o : Dfa) (n m : Nfa) (hd : d.WF) (ho : o.WF) (hn : n.WF) (hm : m.WF)
    (ordP : List (Nat × Nat) → List (Nat × Nat)) (ordQ : List Nfa.OPair → List Nfa.OPair) (ord1 ord2 ord3 : List Nat → List Nat)
    (ordT : Nat → Nat → List Nat → List Nat) (hP : IsOrder ordP) (hQ : IsOrder ordQ) (h1 : IsOrder ord1) (h2 : IsOrder ord2)
    (h3 : IsOrder ord3) (hT : ∀ s c, IsOrder (ordT s c)) (comb : DfaState → DfaState → Bool)
    (comb' : Option NfaState → Option NfaState → Bool) :
    (∃ r, Dfa.product ordP d o comb = some r) ∧ (∃ r, d.minimize ord1 ord2 ord3 = some r) ∧
    (∃ r, d.mergeNondistinguishableStates ord2 ord3 = some r) ∧ (∃ r, d.removeUnreachableStates ord1 = some r) ∧
    (∃ r, n.union m = some r) ∧ (∃ r, Nfa.product ordQ n m comb' = some r) ∧ (∃ r, n.removeUnreachableStates ord1 = some r) ∧
    (∃ r, n.removeEpsilonMoves ordT ord2 = some r) ∧ (∃ r, n.optimize ord1 ordT ord2 = some r) ∧ ∃ r, n.toDfa = some r := by
  refine ⟨(C08_product_none_iff ordP hP d o hd ho comb).1, ?_, ?_, ?_, ?_, (C23_product_none_iff ordQ hQ n m hn hm comb').1,
    ?_, ?_, ?_, ?_⟩
  · obtain ⟨r, h, _⟩ := C16_minimize ord1 ord2 ord3 h1 h2 h3 d hd; exact ⟨r, h⟩
  · obtain ⟨r, _, h, _⟩ := C15_merge ord2 ord3 h2 h3 d hd; exact ⟨r, h⟩
  · obtain ⟨r, h, _⟩ := C13_remove_unreachable ord1 h1 d hd; exact ⟨r, h⟩
  · by_cases hs : SameElems n.alphabet m.alphabet
    · obtain ⟨r, h⟩ := (C21_union_err n m hn hm).2 hs; exact ⟨_, h⟩
    · exact ⟨_, (C21_union_err n m hn hm).1 hs⟩
  · obtain ⟨r, h, _⟩ := C27_nfa_remove_unreachable ord1 h1 n hn; exact ⟨r, h⟩
  · obtain ⟨r, h, _⟩ := C25_remove_epsilon_moves ordT hT ord2 h2 n hn; exact ⟨r, h⟩
  · obtain ⟨r, h, _⟩ := C28_optimize ord1 h1 ordT hT ord2 h2 n hn; exact ⟨r, h⟩
  · obtain ⟨r, h, _⟩ := C19_to_dfa n hn; exact ⟨r, h⟩

/-- Automata read from tables, and automata of regular expressions whose graphemes are names. -/
def NfaSource (n : Nfa) : Prop := NfaRead n ∨ (RegexRead n ∧ ∀ e ∈ n.alphabet, Name e)

theorem regexRead_good {n : Nfa} (h : RegexRead n) : n.WF ∧ ∀ s ∈ n.states, Name s.name := by
  obtain ⟨cl, text, t, _, rfl⟩ := h
  refine ⟨C35_to_nfa_valid t, ?_⟩
  intro s hs
  obtain ⟨i, hi⟩ := List.mem_iff_getElem?.1 hs
  rw [((C35_to_nfa_states t).2.2 i s hi).1]
  exact name_num i

/-- **C45** Every NFA of such a history can be written and read again, with the same result. -/
theorem C45_nfa_reread (n : Nfa) (h : Obtained DfaRead NfaSource (.inr n)) :
    (∃ t p, n.toTable = some t ∧ Fa.nfa t = some p ∧ Validate.nfa p = .ok n) ∧
    ∃ t p, n.asciiTable = some t ∧ Fa.nfa t = some p ∧ Validate.nfa p = .ok n := by
  obtain ⟨h1, h2, h3⟩ : NGood Name (fun l => ∀ e ∈ l, Name e) n := obtained_good
    (P := Name) (Q := fun l => ∀ e ∈ l, Name e) name_closed (srcD := DfaRead) (srcN := NfaSource)
    (fun d ⟨t, p, h1, h2⟩ => by
      obtain ⟨e1, _, e3, e4⟩ := C40_parsed t p d h1 h2
      exact ⟨e1, e4, e3⟩)
    (fun n hn => by
      rcases hn with ⟨t, p, h1, h2⟩ | ⟨h1, h2⟩
      · obtain ⟨e1, e3, e4⟩ := C41_parsed t p n h1 h2
        exact ⟨e1, e4, e3⟩
      · exact ⟨(regexRead_good h1).1, (regexRead_good h1).2, h2⟩) h
  exact C41_roundtrip n h1 h3 h2

/-- **C45** Every DFA of such a history can be written and read again, with the same result, if the alphabets of the sources
are not empty. -/
theorem C45_dfa_reread (d : Dfa) (h : Obtained DfaRead (fun n => NfaSource n ∧ n.alphabet ≠ []) (.inl d)) :
    (∃ t p, d.toTable = some t ∧ Fa.dfa t = some p ∧ Validate.dfa p = .ok d) ∧
    ∃ t p, d.asciiTable = some t ∧ Fa.dfa t = some p ∧ Validate.dfa p = .ok d := by
  obtain ⟨h1, h2, h3, h4⟩ : DGood Name (fun l => l ≠ [] ∧ ∀ e ∈ l, Name e) d := obtained_good
    (P := Name) (Q := fun l => l ≠ [] ∧ ∀ e ∈ l, Name e) name_closed (srcD := DfaRead)
    (srcN := fun n => NfaSource n ∧ n.alphabet ≠ [])
    (fun d ⟨t, p, h1, h2⟩ => by
      obtain ⟨e1, e2, e3, e4⟩ := C40_parsed t p d h1 h2
      exact ⟨e1, e4, e2, e3⟩)
    (fun n ⟨hn, hne⟩ => by
      rcases hn with ⟨t, p, h1, h2⟩ | ⟨h1, h2⟩
      · obtain ⟨e1, e3, e4⟩ := C41_parsed t p n h1 h2
        exact ⟨e1, e4, hne, e3⟩
      · exact ⟨(regexRead_good h1).1, (regexRead_good h1).2, hne, h2⟩) h
  exact C40_roundtrip d h1 h3 h4 h2

/-- Without that condition this is false: an NFA table with only a column for `ε` gives a DFA whose table cannot be read. -/
theorem C45_false_empty_alphabet : ∃ (d : Dfa) (t : Str), Obtained DfaRead NfaRead (.inl d) ∧ d.toTable = some t ∧ Fa.dfa t = none := by
  let n : Nfa := ⟨[], [⟨s 'x', true, true, [], []⟩], 0⟩
  let d : Dfa := ⟨[], [⟨s '0', true, true, []⟩], 0⟩
  refine ⟨d, c!"     \n→ * 0 ", .toDfa (n := n) (.nfa ⟨c!"eps\n-> * x {}", ⟨[.eps], [⟨s 'x', true, true, [[]]⟩]⟩, ?_, ?_⟩) ?_, ?_, ?_⟩
  all_goals decide +kernel

theorem endsB_names : (∀ e ∈ endsB.alphabet, Name e) ∧ ∀ s ∈ endsB.states, Name s.name := by
  constructor
  · intro e he
    rw [name_iff]
    revert e
    decide
  · intro s hs
    rw [name_iff]
    revert s
    decide

/-- A history: two tables are read, one is determinized, the complement of the union is formed, merged, and turned into an
NFA. -/
example : ∃ n : Nfa, Obtained DfaRead NfaSource (.inr n) ∧ 0 < n.states.length := by
  have hid : IsOrder (id : List Nat → List Nat) := fun l => List.Perm.refl l
  have hid2 : IsOrder (id : List (Nat × Nat) → List (Nat × Nat)) := fun l => List.Perm.refl l
  have hwfB : endsB.WF := Dfa.wf_of_wfB (by decide)
  have h1 : Obtained DfaRead NfaSource (.inl endsB) := by
    obtain ⟨t, p, _, e1, e2⟩ := (C40_roundtrip endsB hwfB (by decide) endsB_names.1 endsB_names.2).1
    exact .dfa ⟨t, p, e1, e2⟩
  have h2 : Obtained DfaRead NfaSource (.inr epsNfa) := by
    obtain ⟨t, p, _, e1, e2⟩ := (C41_roundtrip epsNfa epsNfa_wf epsNfa_names.1 epsNfa_names.2).1
    exact .nfa (Or.inl ⟨t, p, e1, e2⟩)
  obtain ⟨d, hd, hdw, hda, _⟩ := C19_to_dfa epsNfa epsNfa_wf
  obtain ⟨⟨r, hr, hrw, _⟩, _⟩ := (C09_dfa_set_operations id hid2 d endsB hdw hwfB).2 (by
    rw [hda]
    intro e
    simp [epsNfa, endsB]
    tauto)
  have h4 := (Obtained.union id hid2 (.toDfa h2 hd) h1 hr).invert
  obtain ⟨m, _, hm, hmw, _⟩ := C15_merge id id hid hid r.invert (C07_invert_complement r hrw []).1
  exact ⟨_, (Obtained.merge id id hid hid h4 hm).toNfa, Nat.lt_of_le_of_lt (Nat.zero_le _) (C18_to_nfa_lang m hmw []).1.init_lt⟩

/-! ## Instances of the theorems of this file -/

example := C44_total oddA endsB epsNfa evenA oddA_wf endsB_wf epsNfa_wf evenA_wf List.reverse List.reverse List.reverse List.reverse
  List.reverse (fun _ _ => List.reverse) (fun l => List.reverse_perm l) (fun l => List.reverse_perm l) (fun l => List.reverse_perm l) (fun
  l => List.reverse_perm l) (fun l => List.reverse_perm l) (fun _ _ l => List.reverse_perm l) (fun p q => p.accepting && !q.accepting) (fun
  p q => p.isSome && q.isNone)

end Dandy
