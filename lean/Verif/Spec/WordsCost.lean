import Verif.Model.Types
/-! # The size of an NFA -/

namespace Dandy

/-- The size of an NFA as a user would write it down: the number of elements, states, entries of the transition table, and
targets in these entries. -/
def Nfa.size (n : Nfa) : Nat :=
  n.alphabet.length + (n.states.map (fun s => 1 + (s.transitions.map (fun ts => 1 + ts.length)).sum)).sum

end Dandy
