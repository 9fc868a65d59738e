import Verif.Spec.Automata
/-! # Specification for C92 and C93: a family of DFAs that makes the comparison of automata slow, and the size of an NFA -/

namespace Dandy

/-- A DFA over the one-letter alphabet `a` whose `n` states, all accepting, form a cycle. -/
def Dfa.ring (n : Nat) : Dfa :=
  { alphabet := [['a']],
    states := (List.range n).map (fun i => { name := List.replicate (i + 1) 'q', initial := i == 0, accepting := true, transitions := [(i + 1) % n] }),
    initialState := 0 }

/-- The size of the transition table of an NFA: one for each state, each epsilon transition, each entry of the table, and each target in an entry. -/
def Nfa.tableSize (n : Nfa) : Nat :=
  (n.states.map (fun s => 1 + s.epsilonTransitions.length + (s.transitions.map (fun ts => 1 + ts.length)).sum)).sum

end Dandy
