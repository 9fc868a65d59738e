import Verif.Spec.Draw
/-! # Sizes of what is drawn (for C108) -/

namespace Dandy
namespace Draw

/-- The bytes of a text. -/
def bytes (s : Str) : Nat := (s.map Char.utf8Size).sum

/-- The pairs of states with labels. -/
def pairsWith (ls : Nat → Nat → List Str) (n : Nat) : List (Nat × Nat) :=
  ((List.range n).flatMap (fun i => (List.range n).map (fun j => (i, j)))).filter (fun x => ls x.1 x.2 ≠ [])

/-- The characters of all labels, the elements separated by commas. -/
def labelChars (ls : Nat → Nat → List Str) (n : Nat) : Nat :=
  ((pairsWith ls n).map (fun x => (List.intercalate c!", " (ls x.1 x.2)).length)).sum

/-- Their bytes. -/
def labelSize (ls : Nat → Nat → List Str) (n : Nat) : Nat :=
  ((pairsWith ls n).map (fun x => bytes (List.intercalate c!", " (ls x.1 x.2)))).sum

/-- The number of transitions of an NFA, epsilon moves included. -/
def nfaMoves (n : Nfa) : Nat := (n.states.map (fun s => (s.transitions.map List.length).sum + s.epsilonTransitions.length)).sum

end Draw
end Dandy
