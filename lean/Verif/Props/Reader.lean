import Verif.Proofs.Reader
import Verif.Model.Chars
/-!
# Tables mean what splitting into lines and words says

Property C103.
-/

namespace Dandy

/-- C103: the parser of DFA tables has for every text the result of splitting the text into lines and words. -/
theorem C103_dfa (t : Str) : Fa.dfa t = Reader.dfa t := by
  refine Option.ext (fun p => ?_)
  rw [Reader.dfa_iff, fa_dfa_iff]

/-- C103: the same for NFA tables. -/
theorem C103_nfa (t : Str) : Fa.nfa t = Reader.nfa t := by
  refine Option.ext (fun p => ?_)
  rw [Reader.nfa_iff, fa_nfa_iff]

example : Reader.dfa c!"# even\r\n a  b \n\n->  * x y  x # start\r\n\ty y x" =
    some ⟨[c!"a", c!"b"], [⟨c!"x", true, true, [c!"y", c!"x"]⟩, ⟨c!"y", false, false, [c!"y", c!"x"]⟩]⟩ := by rfl
example : Reader.nfa c!"eps b\n→ x {} { y x }\n* y {x}{ y}" = none ∧
    Reader.nfa c!"eps b\n→ x {} { y x }\n* y {x} { y}" =
      some ⟨[.eps, .element c!"b"], [⟨c!"x", true, false, [[], [c!"y", c!"x"]]⟩, ⟨c!"y", false, true, [[c!"x"], [c!"y"]]⟩]⟩ := by
  constructor <;> rfl
example : Reader.dfa c!"a b\n-> x y" ≠ none ∧ Reader.dfa c!"a b" = none ∧ Reader.dfa c!"a b\n->" = none ∧ Reader.dfa c!"a b\r-> x y" = none ∧
    Reader.dfa c!"a b\n* -> x y" = none := by decide +kernel

/-- C103: texts with the same words on the lines that are not empty are the same tables: the number of blanks, the comments, empty lines and the
kind of the line ends do not matter. -/
theorem C103_layout (t t' : Str) (h : Reader.table t = Reader.table t') : Fa.dfa t = Fa.dfa t' ∧ Fa.nfa t = Fa.nfa t' := by
  have hw : ∀ {α σ : Type} (f : Str → Option α) (g : List Str → Option σ), Reader.whole f g t = Reader.whole f g t' := by
    intro α σ f g
    unfold Reader.whole
    rw [h]
  rw [C103_dfa, C103_dfa, C103_nfa, C103_nfa]
  unfold Reader.dfa Reader.nfa
  rw [hw, hw]
  exact ⟨rfl, rfl⟩

example : Reader.table c!"# even\r\n a  b \n\n->  * x y  x # start\r\n\ty y x" = Reader.table c!"a b\n-> * x y x\ny y x\n" ∧
    Reader.table c!"a b\n-> * x y x\ny y x\n" = some [[c!"a", c!"b"], [c!"->", c!"*", c!"x", c!"y", c!"x"], [c!"y", c!"y", c!"x"]] := by
  decide +kernel

/-! ## Instances of the theorems of this file -/

example := C103_dfa c!"a b\n→ n n n"

end Dandy
