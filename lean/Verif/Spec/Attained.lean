import Verif.Model.Nfa
import Verif.Model.Basic
import Verif.Model.Chars
/-! # Automata for which sizes are as large as they can be -/

namespace Dandy
namespace Attained

/-- Words over `a`, `b` in which the number of `x` is a multiple of `n`; `x` is `a` if `first`, `b` otherwise. -/
def counter (n : Nat) (first : Bool) : Dfa where
  alphabet := [c!"a", c!"b"]
  states := (List.range n).map (fun i => ⟨numStr i, decide (i = 0), decide (i = 0), if first then [(i + 1) % n, i] else [i, (i + 1) % n]⟩)
  initialState := 0

/-- An NFA with `n` states in a circle: `a` goes one further, `b` from the first state to every state, `c` nowhere from the first; otherwise
`b` and `c` stay. -/
def circle (n : Nat) : Nfa where
  alphabet := [c!"a", c!"b", c!"c"]
  states := (List.range n).map (fun i =>
    ⟨numStr i, decide (i = 0), decide (i = 0), [], [[(i + 1) % n], if i = 0 then List.range n else [i], if i = 0 then [] else [i]]⟩)
  initialState := 0

/-- An NFA with `n` states in a circle over four elements: `a` (if `first`, `b` otherwise) goes one further, with `c` (if `first`, `d` otherwise)
there is no way to go, the others stay. -/
def stopper (n : Nat) (first : Bool) : Nfa where
  alphabet := [c!"a", c!"b", c!"c", c!"d"]
  states := (List.range n).map (fun i =>
    ⟨numStr i, decide (i = 0), true, [], if first then [[(i + 1) % n], [i], [], [i]] else [[i], [(i + 1) % n], [i], []]⟩)
  initialState := 0

end Attained
end Dandy
