import Verif.Proofs.Rearrange
import Verif.Props.Validate
import Verif.Props.DfaProduct
import Verif.Props.NfaToDfa
import Verif.Props.NfaEvaluator
import Verif.Props.DfaEvaluator
import Verif.Props.Docs
/-! # C110: the order of lines and columns of a table -/

namespace Dandy
open Samples

/-- **C110** Two Dfa tables which say the same give Dfas which behave the same, by the names of states and elements:
the same states after every word, also from every other state, and the same words accepted. -/
theorem C110_dfa (p p' : ParsedDfa) (d d' : Dfa) (hd : Validate.dfa p = .ok d) (hd' : Validate.dfa p' = .ok d') (h : p.SameContent p') :
    d.states.length = d'.states.length ∧ SameElems d.alphabet d'.alphabet ∧ (∀ w n, d.InState w n ↔ d'.InState w n) ∧
      (∀ n w m, d.Walk n w m ↔ d'.Walk n w m) ∧ (∀ w, d.accepts w = d'.accepts w) ∧ d.equivalentTo d' = some true := by
  have hp := (C38_succeeds_iff p).1 ⟨d, hd⟩
  have hp' := (C38_succeeds_iff p').1 ⟨d', hd'⟩
  obtain ⟨hd, hw, _⟩ := C38_content p d hd
  obtain ⟨hd', hw', _⟩ := C38_content p' d' hd'
  have hlang := ParsedDfa.same_lang hp hd hp' hd' h
  have hel : SameElems d.alphabet d'.alphabet := by rw [hd.alphabet, hd'.alphabet]; exact h.elements
  refine ⟨?_, hel, ParsedDfa.same_inState hp hd hp' hd' h, ParsedDfa.same_walk hp hd hp' hd' h, fun w => ?_, (C11_dfa_equivalent_to d d' hw hw').2.2 ⟨hel, hlang⟩⟩
  · rw [hd.count, hd'.count]; exact ParsedDfa.same_count hp hp' h
  · rw [Bool.eq_iff_iff, C01_dfa_accepts_iff d hw, C01_dfa_accepts_iff d' hw']; exact hlang w

/-- **C110** Lines and columns of a Dfa table can be written in any order: it is legal or not as before, and says the same. -/
theorem C110_dfa_rearranged (p p' : ParsedDfa) (hr : p.Rectangular) (h : p.Rearranged p') :
    ((∃ d, Validate.dfa p = .ok d) ↔ ∃ d', Validate.dfa p' = .ok d') ∧ p.SameContent p' := by
  rw [C38_succeeds_iff, C38_succeeds_iff]
  exact ⟨h.legal_iff hr, h.same hr⟩

/-- **C110** For texts: if one is a table of a Dfa and the table of the other is rearranged, the other gives a Dfa which behaves the same. -/
theorem C110_dfa_text (t t' : Str) (p p' : ParsedDfa) (d : Dfa) (ht : Fa.dfa t = some p) (ht' : Fa.dfa t' = some p')
    (hd : Validate.dfa p = .ok d) (h : p.Rearranged p') :
    ∃ d', (Fa.dfa t').map Validate.dfa = some (.ok d') ∧ (Fa.dfa t).map Validate.dfa = some (.ok d) ∧
      d.states.length = d'.states.length ∧ (∀ n w m, d.Walk n w m ↔ d'.Walk n w m) ∧ (∀ w, d.accepts w = d'.accepts w) ∧
      d.equivalentTo d' = some true := by
  have hr : p.Rectangular := ((C38_succeeds_iff p).1 ⟨d, hd⟩).width
  obtain ⟨h1, h2⟩ := C110_dfa_rearranged p p' hr h
  obtain ⟨d', hd'⟩ := h1.1 ⟨d, hd⟩
  obtain ⟨g1, _, _, g4, g5, g6⟩ := C110_dfa p p' d d' hd hd' h2
  exact ⟨d', by rw [ht', Option.map_some, hd'], by rw [ht, Option.map_some, hd], g1, g4, g5, g6⟩

/-- A table with the initial line first, and one with lines and columns exchanged. -/
example : ∃ p p' d, Fa.dfa c!"  a b\n-> n n y\n* y n y\n" = some p ∧ Fa.dfa c!"  b a\n* y y n\n-> n y n\n" = some p' ∧
    Validate.dfa p = .ok d ∧ p.Rectangular ∧ p.Rearranged p' ∧ Validate.dfa p' ≠ .ok d ∧
    (∀ n w m, d.Walk n w m ↔ endsB.Walk n w m) ∧ (∀ w, d.accepts w = endsB.accepts w) := by
  let p : ParsedDfa := ⟨[s 'a', s 'b'], [⟨s 'n', true, false, [s 'n', s 'y']⟩, ⟨s 'y', false, true, [s 'n', s 'y']⟩]⟩
  let d : Dfa := ⟨[s 'a', s 'b'], [⟨s 'n', true, false, [0, 1]⟩, ⟨s 'y', false, true, [0, 1]⟩], 0⟩
  have h1 : Fa.dfa c!"  a b\n-> n n y\n* y n y\n" = some p := by decide +kernel
  have h2 : Fa.dfa c!"  b a\n* y y n\n-> n y n\n" = some endsBTable := by decide +kernel
  have h3 : Validate.dfa p = .ok d := by decide
  have h4 : p.Rearranged endsBTable := ⟨[1, 0], by decide, by decide, by decide⟩
  obtain ⟨d', g1, _, _, g2, g3, _⟩ := C110_dfa_text _ _ p endsBTable d h1 h2 h3 h4
  obtain rfl : d' = endsB := by
    rw [h2, Option.map_some, show Validate.dfa endsBTable = .ok endsB by decide] at g1
    cases g1; rfl
  exact ⟨p, _, d, h1, h2, h3, by simp [p, ParsedDfa.Rectangular], h4, by decide, g2, g3⟩

/-- **C110** Two Nfa tables which say the same give Nfas which behave the same, by the names of states and elements:
the same states after every word, also from every other state, and the same words accepted. -/
theorem C110_nfa (p p' : ParsedNfa) (d d' : Nfa) (hd : Validate.nfa p = .ok d) (hd' : Validate.nfa p' = .ok d') (h : p.SameContent p') :
    d.states.length = d'.states.length ∧ SameElems d.alphabet d'.alphabet ∧ (∀ w n, d.InState w n ↔ d'.InState w n) ∧
      (∀ n w m, d.Walk n w m ↔ d'.Walk n w m) ∧ (∀ w, d.accepts w = d'.accepts w) ∧ d.equivalentTo d' = some true := by
  have hp := (C39_succeeds_iff p).1 ⟨d, hd⟩
  have hp' := (C39_succeeds_iff p').1 ⟨d', hd'⟩
  obtain ⟨hd, hw, _⟩ := C39_content p d hd
  obtain ⟨hd', hw', _⟩ := C39_content p' d' hd'
  have hlang := ParsedNfa.same_lang hp hd hp' hd' h
  have hel : SameElems d.alphabet d'.alphabet := by rw [hd.alphabet, hd'.alphabet]; exact fun e => by rw [ParsedNfa.mem_elements, ParsedNfa.mem_elements]; exact h.elements e
  refine ⟨?_, hel, ParsedNfa.same_inState hp hd hp' hd' h, ParsedNfa.same_walk hp hd hp' hd' h, fun w => ?_, by
    obtain ⟨b, hb, hiff⟩ := C20_nfa_equivalent_to d d' hw hw'
    rw [hb, hiff.2 ⟨hel, hlang⟩]⟩
  · rw [hd.count, hd'.count]; exact ParsedNfa.same_count hp hp' h
  · rw [Bool.eq_iff_iff, C02_nfa_accepts_iff d hw, C02_nfa_accepts_iff d' hw']; exact hlang w

/-- **C110** Lines and columns of a Nfa table can be written in any order, and the targets in an entry too: it is legal or not as before, and says the same. -/
theorem C110_nfa_rearranged (p p' : ParsedNfa) (hr : p.Rectangular) (h : p.Rearranged p') :
    ((∃ d, Validate.nfa p = .ok d) ↔ ∃ d', Validate.nfa p' = .ok d') ∧ p.SameContent p' := by
  rw [C39_succeeds_iff, C39_succeeds_iff]
  exact ⟨h.legal_iff hr, h.same hr⟩

/-- **C110** For texts: if one is a table of a Nfa and the table of the other is rearranged, the other gives a Nfa which behaves the same. -/
theorem C110_nfa_text (t t' : Str) (p p' : ParsedNfa) (d : Nfa) (ht : Fa.nfa t = some p) (ht' : Fa.nfa t' = some p')
    (hd : Validate.nfa p = .ok d) (h : p.Rearranged p') :
    ∃ d', (Fa.nfa t').map Validate.nfa = some (.ok d') ∧ (Fa.nfa t).map Validate.nfa = some (.ok d) ∧
      d.states.length = d'.states.length ∧ (∀ n w m, d.Walk n w m ↔ d'.Walk n w m) ∧ (∀ w, d.accepts w = d'.accepts w) ∧
      d.equivalentTo d' = some true := by
  have hr : p.Rectangular := ((C39_succeeds_iff p).1 ⟨d, hd⟩).width
  obtain ⟨h1, h2⟩ := C110_nfa_rearranged p p' hr h
  obtain ⟨d', hd'⟩ := h1.1 ⟨d, hd⟩
  obtain ⟨g1, _, _, g4, g5, g6⟩ := C110_nfa p p' d d' hd hd' h2
  exact ⟨d', by rw [ht', Option.map_some, hd'], by rw [ht, Option.map_some, hd], g1, g4, g5, g6⟩

/-- A table with the epsilon column first, other lines first, and a target only once. -/
example : ∃ p p' d, Fa.nfa c!"  b eps a\n* y {y n} {} {n n}\n-> n {} {y n} {y}\n" = some p ∧
    Fa.nfa c!"  eps a b\n-> n {n y} {y} {}\n* y {} {n} {n y y}\n" = some p' ∧
    Validate.nfa p = .ok d ∧ p.Rectangular ∧ p.Rearranged p' ∧ Validate.nfa p' ≠ .ok d ∧
    ∃ d', Validate.nfa p' = .ok d' ∧ (∀ n w m, d.Walk n w m ↔ d'.Walk n w m) ∧ (∀ w, d.accepts w = d'.accepts w) := by
  let p' : ParsedNfa := ⟨[.eps, .element (s 'a'), .element (s 'b')],
    [⟨s 'n', true, false, [[s 'n', s 'y'], [s 'y'], []]⟩, ⟨s 'y', false, true, [[], [s 'n'], [s 'n', s 'y', s 'y']]⟩]⟩
  have h1 : Fa.nfa c!"  b eps a\n* y {y n} {} {n n}\n-> n {} {y n} {y}\n" = some epsTable := by decide +kernel
  have h2 : Fa.nfa c!"  eps a b\n-> n {n y} {y} {}\n* y {} {n} {n y y}\n" = some p' := by decide +kernel
  have h3 : Validate.nfa epsTable = .ok epsTableNfa := by decide
  have h4 : epsTable.Rearranged p' := by
    refine ⟨[1, 2, 0], p'.states.reverse, by decide, by decide, ?_, by decide⟩
    refine .cons ⟨rfl, rfl, rfl, ?_⟩ (.cons ⟨rfl, rfl, rfl, ?_⟩ .nil)
    · exact .cons (by simp) (.cons (by simp) (.cons (by simp [or_comm]) .nil))
    · exact .cons (by simp [or_comm]) (.cons (by simp) (.cons (by simp) .nil))
  obtain ⟨d', g1, _, _, g2, g3, _⟩ := C110_nfa_text _ _ epsTable p' epsTableNfa h1 h2 h3 h4
  rw [h2, Option.map_some, Option.some.injEq] at g1
  exact ⟨_, p', epsTableNfa, h1, h2, h3, by simp [epsTable, ParsedNfa.Rectangular], h4, by decide, d', g1, g2, g3⟩

end Dandy
