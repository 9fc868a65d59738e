import Verif.Spec.RegexGrammar
/-! # Pumping, and how many elements are written in an expression -/

namespace Dandy

/-- Every word of `L` with more than `m` elements has, within its first `m` elements, a part that can be left out or repeated. -/
def Pumps (m : Nat) (L : Language Str) : Prop :=
  ∀ w ∈ L, m < w.length → ∃ x y z : List Str, w = x ++ y ++ z ∧ (x ++ y).length ≤ m ∧ y ≠ [] ∧ ∀ i, x ++ (List.replicate i y).flatten ++ z ∈ L

/-- The number of characters of a text other than parentheses, bars, stars and pluses. At least the number of elements written. -/
def exprSize (s : Str) : Nat := (s.filter (· ∉ ['(', ')', '|', '*', '+'])).length

end Dandy
