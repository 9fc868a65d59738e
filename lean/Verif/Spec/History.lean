import Verif.Model.Nfa
import Verif.Model.Regex
import Verif.Model.RegexParser
import Verif.Model.FaParser
/-!
# Histories of operations

The automata a program can hold, as an inductive relation: automata of given sources, and results of the public operations
(in any order, any number of times, with any iteration order of hash sets in each of them) that return or change automata.
-/

namespace Dandy

/-- An iteration order of a hash set. -/
def IsOrder {α : Type} (ord : List α → List α) : Prop := ∀ l, (ord l).Perm l

/-- Automata obtained from sources by a finite sequence of public operations. -/
inductive Obtained (srcD : Dfa → Prop) (srcN : Nfa → Prop) : Dfa ⊕ Nfa → Prop
  | dfa {d} : srcD d → Obtained srcD srcN (.inl d)
  | nfa {n} : srcN n → Obtained srcD srcN (.inr n)
  -- operations on DFAs
  | invert {d} : Obtained srcD srcN (.inl d) → Obtained srcD srcN (.inl d.invert)
  | union {d o r} (ord) : IsOrder ord → Obtained srcD srcN (.inl d) → Obtained srcD srcN (.inl o) →
      Dfa.union ord d o = some (some r) → Obtained srcD srcN (.inl r)
  | intersection {d o r} (ord) : IsOrder ord → Obtained srcD srcN (.inl d) → Obtained srcD srcN (.inl o) →
      Dfa.intersection ord d o = some (some r) → Obtained srcD srcN (.inl r)
  | difference {d o r} (ord) : IsOrder ord → Obtained srcD srcN (.inl d) → Obtained srcD srcN (.inl o) →
      Dfa.difference ord d o = some (some r) → Obtained srcD srcN (.inl r)
  | symmetricDifference {d o r} (ord) : IsOrder ord → Obtained srcD srcN (.inl d) → Obtained srcD srcN (.inl o) →
      Dfa.symmetricDifference ord d o = some (some r) → Obtained srcD srcN (.inl r)
  | product {d o r} (ord) (comb) : IsOrder ord → Obtained srcD srcN (.inl d) → Obtained srcD srcN (.inl o) →
      Dfa.product ord d o comb = some (some r) → Obtained srcD srcN (.inl r)
  | minimize {d r} (ordU ord ordKeys) : IsOrder ordU → IsOrder ord → IsOrder ordKeys → Obtained srcD srcN (.inl d) →
      d.minimize ordU ord ordKeys = some r → Obtained srcD srcN (.inl r)
  | merge {d r} (ord ordKeys) : IsOrder ord → IsOrder ordKeys → Obtained srcD srcN (.inl d) →
      d.mergeNondistinguishableStates ord ordKeys = some r → Obtained srcD srcN (.inl r)
  | removeUnreachable {d r} (ord) : IsOrder ord → Obtained srcD srcN (.inl d) →
      d.removeUnreachableStates ord = some r → Obtained srcD srcN (.inl r)
  | toNfa {d} : Obtained srcD srcN (.inl d) → Obtained srcD srcN (.inr d.toNfa)
  -- operations on NFAs
  | nfaUnion {n o r} : Obtained srcD srcN (.inr n) → Obtained srcD srcN (.inr o) →
      n.union o = some (.ok r) → Obtained srcD srcN (.inr r)
  | nfaUnionErrLeft {n o n' o'} : Obtained srcD srcN (.inr n) → Obtained srcD srcN (.inr o) →
      n.union o = some (.error (n', o')) → Obtained srcD srcN (.inr n')
  | nfaUnionErrRight {n o n' o'} : Obtained srcD srcN (.inr n) → Obtained srcD srcN (.inr o) →
      n.union o = some (.error (n', o')) → Obtained srcD srcN (.inr o')
  | nfaIntersection {n o r} (ord) : IsOrder ord → Obtained srcD srcN (.inr n) → Obtained srcD srcN (.inr o) →
      Nfa.intersection ord n o = some (some r) → Obtained srcD srcN (.inr r)
  | nfaProduct {n o r} (ord) (comb) : IsOrder ord → Obtained srcD srcN (.inr n) → Obtained srcD srcN (.inr o) →
      Nfa.product ord n o comb = some (some r) → Obtained srcD srcN (.inr r)
  | nfaRemoveUnreachable {n r} (ord) : IsOrder ord → Obtained srcD srcN (.inr n) →
      n.removeUnreachableStates ord = some r → Obtained srcD srcN (.inr r)
  | removeEpsilonMoves {n r} (ordT ordDead) : (∀ s c, IsOrder (ordT s c)) → IsOrder ordDead → Obtained srcD srcN (.inr n) →
      n.removeEpsilonMoves ordT ordDead = some r → Obtained srcD srcN (.inr r)
  | optimize {n r} (ordU ordT ordDead) : IsOrder ordU → (∀ s c, IsOrder (ordT s c)) → IsOrder ordDead →
      Obtained srcD srcN (.inr n) → n.optimize ordU ordT ordDead = some r → Obtained srcD srcN (.inr r)
  | toDfa {n r} : Obtained srcD srcN (.inr n) → n.toDfa = some r → Obtained srcD srcN (.inl r)

/-- A DFA read from a text. -/
def DfaRead (d : Dfa) : Prop := ∃ text p, Fa.dfa text = some p ∧ Validate.dfa p = .ok d

/-- An NFA read from a text. -/
def NfaRead (n : Nfa) : Prop := ∃ text p, Fa.nfa text = some p ∧ Validate.nfa p = .ok n

/-- An NFA of a regular expression read from a text, with some segmentation into grapheme clusters. -/
def RegexRead (n : Nfa) : Prop := ∃ cl text t, RegexParser.regex cl text = some t ∧ t.toNfa = n

end Dandy
