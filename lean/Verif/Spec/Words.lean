import Verif.Spec.Automata
/-! # Length-lexicographic order of words -/

namespace Dandy

/-- `a` stands before `b` in the alphabet. -/
def Before (alphabet : List Str) (a b : Str) : Prop :=
  ∃ i j : Nat, alphabet[i]? = some a ∧ alphabet[j]? = some b ∧ i < j

/-- `u` comes before `v`: it is shorter, or they have the same length and at the first difference the element of `u`
stands before the one of `v` in the alphabet. -/
def ShortLex (alphabet : List Str) (u v : Word) : Prop :=
  u.length < v.length ∨ u.length = v.length ∧
    ∃ (p u' v' : Word) (a b : Str), u = p ++ a :: u' ∧ v = p ++ b :: v' ∧ Before alphabet a b

end Dandy
