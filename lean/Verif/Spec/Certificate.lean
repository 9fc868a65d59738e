import Verif.Spec.Compose
import Verif.Model.Types
/-! # The equation of a row of a table (for C132) -/

namespace Dandy

/-- The moves in a row: the column and the target. -/
def NfaState.moves (s : NfaState) : List (Nat × Nat) := s.transitions.zipIdx.flatMap fun c => c.1.map fun p => (c.2, p)

/-- What one writes for a row: `a` are texts for the columns, `t` texts for the states, and `e` is a text for the end. -/
def NfaState.equation (a t : Nat → Str) (e : Str) (s : NfaState) : Shape Str :=
  s.moves.foldr (fun m z => .alt (.seq (.text (a m.1)) (.text (t m.2))) z) (s.epsilonTransitions.foldr (fun p z => .alt (.text (t p)) z) (.text e))

end Dandy
