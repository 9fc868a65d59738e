import Verif.Spec.History
import Verif.Spec.Automata
/-!
# Laws of the operations

Terms built from variables for automata by the operations of the library, read in two ways: as formulas of propositional logic, and
as programs calling the library.
-/

namespace Dandy

inductive Kind where
  | dfa
  | nfa

/-- The automata of a kind. -/
abbrev Kind.Automaton : Kind → Type
  | .dfa => Dfa
  | .nfa => Nfa

/-- Terms for DFAs and NFAs. -/
inductive Term : Kind → Type
  | dfa (i : Nat) : Term .dfa
  | nfa (i : Nat) : Term .nfa
  | invert (t : Term .dfa) : Term .dfa
  | union (t u : Term .dfa) : Term .dfa
  | intersection (t u : Term .dfa) : Term .dfa
  | difference (t u : Term .dfa) : Term .dfa
  | symmetricDifference (t u : Term .dfa) : Term .dfa
  | minimize (t : Term .dfa) : Term .dfa
  | merge (t : Term .dfa) : Term .dfa
  | removeUnreachable (t : Term .dfa) : Term .dfa
  | toDfa (t : Term .nfa) : Term .dfa
  | toNfa (t : Term .dfa) : Term .nfa
  | nfaUnion (t u : Term .nfa) : Term .nfa
  | nfaIntersection (t u : Term .nfa) : Term .nfa
  | nfaRemoveUnreachable (t : Term .nfa) : Term .nfa
  | removeEpsilonMoves (t : Term .nfa) : Term .nfa
  | optimize (t : Term .nfa) : Term .nfa

/-- The formula of a term, for truth values of the variables. -/
def Term.Holds (v w : Nat → Prop) {k : Kind} : Term k → Prop
  | .dfa i => v i
  | .nfa i => w i
  | .invert t => ¬ t.Holds v w
  | .union t u | .nfaUnion t u => t.Holds v w ∨ u.Holds v w
  | .intersection t u | .nfaIntersection t u => t.Holds v w ∧ u.Holds v w
  | .difference t u => t.Holds v w ∧ ¬ u.Holds v w
  | .symmetricDifference t u => ¬ (t.Holds v w ↔ u.Holds v w)
  | .minimize t | .merge t | .removeUnreachable t | .toDfa t | .toNfa t | .nfaRemoveUnreachable t | .removeEpsilonMoves t
  | .optimize t => t.Holds v w

/-- Calling the library as the term says may give this automaton, for the given automata of the variables and some iteration orders of hash sets. -/
def Term.Computes (D : Nat → Dfa) (N : Nat → Nfa) {k : Kind} : Term k → k.Automaton → Prop
  | .dfa i, r => r = D i
  | .nfa i, r => r = N i
  | .invert t, r => ∃ a, t.Computes D N a ∧ r = a.invert
  | .union t u, r => ∃ a b ord, t.Computes D N a ∧ u.Computes D N b ∧ IsOrder ord ∧ Dfa.union ord a b = some (some r)
  | .intersection t u, r => ∃ a b ord, t.Computes D N a ∧ u.Computes D N b ∧ IsOrder ord ∧ Dfa.intersection ord a b = some (some r)
  | .difference t u, r => ∃ a b ord, t.Computes D N a ∧ u.Computes D N b ∧ IsOrder ord ∧ Dfa.difference ord a b = some (some r)
  | .symmetricDifference t u, r =>
    ∃ a b ord, t.Computes D N a ∧ u.Computes D N b ∧ IsOrder ord ∧ Dfa.symmetricDifference ord a b = some (some r)
  | .minimize t, r => ∃ a ordU ord ordKeys, t.Computes D N a ∧ IsOrder ordU ∧ IsOrder ord ∧ IsOrder ordKeys ∧
    a.minimize ordU ord ordKeys = some r
  | .merge t, r => ∃ a ord ordKeys, t.Computes D N a ∧ IsOrder ord ∧ IsOrder ordKeys ∧ a.mergeNondistinguishableStates ord ordKeys = some r
  | .removeUnreachable t, r => ∃ a ord, t.Computes D N a ∧ IsOrder ord ∧ a.removeUnreachableStates ord = some r
  | .toDfa t, r => ∃ a, t.Computes D N a ∧ a.toDfa = some r
  | .toNfa t, r => ∃ a, t.Computes D N a ∧ r = a.toNfa
  | .nfaUnion t u, r => ∃ a b, t.Computes D N a ∧ u.Computes D N b ∧ a.union b = some (.ok r)
  | .nfaIntersection t u, r => ∃ a b ord, t.Computes D N a ∧ u.Computes D N b ∧ IsOrder ord ∧ Nfa.intersection ord a b = some (some r)
  | .nfaRemoveUnreachable t, r => ∃ a ord, t.Computes D N a ∧ IsOrder ord ∧ a.removeUnreachableStates ord = some r
  | .removeEpsilonMoves t, r => ∃ a ordT ordDead, t.Computes D N a ∧ (∀ s c, IsOrder (ordT s c)) ∧ IsOrder ordDead ∧
    a.removeEpsilonMoves ordT ordDead = some r
  | .optimize t, r => ∃ a ordU ordT ordDead, t.Computes D N a ∧ IsOrder ordU ∧ (∀ s c, IsOrder (ordT s c)) ∧ IsOrder ordDead ∧
    a.optimize ordU ordT ordDead = some r

/-- Valid automata over the same elements. -/
structure Compatible (al : List Str) (D : Nat → Dfa) (N : Nat → Nfa) : Prop where
  dfa : ∀ i, (D i).WF
  nfa : ∀ i, (N i).WF
  dfaElems : ∀ i, SameElems (D i).alphabet al
  nfaElems : ∀ i, SameElems (N i).alphabet al

end Dandy
