import Verif.Proofs.Validate
import Verif.Props.Samples
/-! # C38, C39: validation of parsed tables -/

namespace Dandy
open Samples

/-! ## C38: DFA tables -/

/-- C38: the conversion succeeds exactly for the legal tables. -/
theorem C38_succeeds_iff (p : ParsedDfa) : (∃ d, Validate.dfa p = .ok d) ↔ p.Legal :=
  ⟨fun ⟨_, h⟩ => (dfa_ok h).1, dfa_total⟩

/-- C38: the result is a valid DFA with the content of the table, and it is the only DFA with this content. -/
theorem C38_content (p : ParsedDfa) (d : Dfa) (h : Validate.dfa p = .ok d) :
    p.Describes d ∧ d.WF ∧ ∀ d', p.Describes d' → d' = d := by
  obtain ⟨h1, h2⟩ := dfa_ok h
  exact ⟨h2, h2.wf h1, fun d' h' => h'.unique h1 h2⟩

/-- C38: an error names a defect which is present in the table. -/
theorem C38_error (p : ParsedDfa) (e : ParseError) (h : Validate.dfa p = .error e) : p.HasDefect e := dfa_error h

/-- A table for `endsB` (the initial state is in the second row). -/
def endsBTable : ParsedDfa :=
  ⟨[s 'b', s 'a'], [⟨s 'y', false, true, [s 'y', s 'n']⟩, ⟨s 'n', true, false, [s 'y', s 'n']⟩]⟩

example : Validate.dfa endsBTable = .ok endsB := by decide
example : endsBTable.Legal := (C38_succeeds_iff _).1 ⟨endsB, by decide⟩
example : endsBTable.Describes endsB := (C38_content _ _ (by decide)).1

/-- Tables with several defects at once. -/
def badDfa1 : ParsedDfa :=
  ⟨[s 'b', s 'a', s 'b'], [⟨s 'y', true, true, [s 'y', s 'z', s 'y']⟩, ⟨s 'y', true, false, [s 'y', s 'y']⟩]⟩
def badDfa2 : ParsedDfa :=
  ⟨[s 'b', s 'a'], [⟨s 'y', true, true, [s 'y', s 'y']⟩, ⟨s 'n', true, false, [s 'n', s 'z']⟩, ⟨s 'm', true, false, [s 'n']⟩]⟩

example : Validate.dfa badDfa1 = .error (.duplicateAlphabetSymbol (s 'b')) := by decide
example : Validate.dfa badDfa2 = .error (.transitionDoesNotExist (s 'n') (s 'z')) := by decide
example : ¬ badDfa2.Legal := fun h => by
  obtain ⟨d, hd⟩ := (C38_succeeds_iff _).2 h
  exact absurd hd (by rw [show Validate.dfa badDfa2 = .error (.transitionDoesNotExist (s 'n') (s 'z')) by decide]; intro h; cases h)
example : badDfa2.HasDefect (.transitionDoesNotExist (s 'n') (s 'z')) := C38_error _ _ (by decide)

/-! ## C39: NFA tables -/

/-- C39: the conversion succeeds exactly for the legal tables. -/
theorem C39_succeeds_iff (p : ParsedNfa) : (∃ n, Validate.nfa p = .ok n) ↔ p.Legal :=
  ⟨fun ⟨_, h⟩ => (nfa_ok h).1, nfa_total⟩

/-- C39: the result is a valid NFA with the content of the table, and it is the only NFA with this content. -/
theorem C39_content (p : ParsedNfa) (n : Nfa) (h : Validate.nfa p = .ok n) :
    p.Describes n ∧ n.WF ∧ ∀ n', p.Describes n' → n' = n := by
  obtain ⟨h1, h2⟩ := nfa_ok h
  exact ⟨h2, h2.wf h1, fun n' h' => h'.unique h1 h2⟩

/-- C39: an error names a defect which is present in the table. -/
theorem C39_error (p : ParsedNfa) (e : ParseError) (h : Validate.nfa p = .error e) : p.HasDefect e := nfa_error h

/-- A table with the epsilon column in the middle. -/
def epsTable : ParsedNfa :=
  ⟨[.element (s 'b'), .eps, .element (s 'a')],
    [⟨s 'y', false, true, [[s 'y', s 'n'], [], [s 'n', s 'n']]⟩, ⟨s 'n', true, false, [[], [s 'y', s 'n'], [s 'y']]⟩]⟩

/-- Its NFA. -/
def epsTableNfa : Nfa :=
  { alphabet := [s 'b', s 'a'],
    states := [⟨s 'y', false, true, [], [[0, 1], [1, 1]]⟩, ⟨s 'n', true, false, [0, 1], [[], [0]]⟩],
    initialState := 1 }

example : Validate.nfa epsTable = .ok epsTableNfa := by decide
example : epsTable.Legal := (C39_succeeds_iff _).1 ⟨epsTableNfa, by decide⟩
example : epsTable.Describes epsTableNfa := (C39_content _ _ (by decide)).1

/-- Two epsilon columns. -/
def badNfa1 : ParsedNfa := ⟨[.eps, .element (s 'a'), .eps], [⟨s 'y', false, true, [[], [], []]⟩]⟩
/-- A row too short after a good one, and no initial state. -/
def badNfa2 : ParsedNfa := ⟨[.eps, .element (s 'a')], [⟨s 'y', false, true, [[s 'y'], [s 'y', s 'n']]⟩, ⟨s 'n', false, true, [[]]⟩]⟩

example : Validate.nfa badNfa1 = .error (.duplicateAlphabetSymbol ['ε']) := by decide
example : Validate.nfa badNfa2 = .error (.wrongNumberOfTransitions (s 'n') 1 2) := by decide
example : badNfa1.HasDefect (.duplicateAlphabetSymbol ['ε']) := C39_error _ _ (by decide)

end Dandy
