import Verif.Spec.Automata
/-! # How many words of a length are accepted, read off the table -/

namespace Dandy

/-- How many words of a length are accepted from a state: with nothing left to read one or none, otherwise the sum over the row of the
state. -/
def Dfa.countFrom (d : Dfa) : Nat → Nat → Nat
  | 0, q =>
    match d.states[q]? with
    | some s => if s.accepting then 1 else 0
    | none => 0
  | m + 1, q =>
    match d.states[q]? with
    | some s => (s.transitions.map (d.countFrom m)).sum
    | none => 0

/-- How many words of a length are accepted. -/
def Dfa.count (d : Dfa) (m : Nat) : Nat := d.countFrom m d.initialState

/-- How many words with as many elements as `w` are accepted from a state and come before `w`: those that begin with an element before the first
one of `w`, and those that begin with the same element and go on with something smaller. -/
def Dfa.rankFrom (d : Dfa) : Nat → Word → Nat
  | _, [] => 0
  | q, e :: w =>
    match d.states[q]? with
    | some s => ((s.transitions.take (d.alphabet.idxOf e)).map (d.countFrom w.length)).sum +
        d.rankFrom (s.transitions.getD (d.alphabet.idxOf e) 0) w
    | none => 0

/-- How many accepted words come before `w`: the shorter ones, and those with as many elements. -/
def Dfa.rank (d : Dfa) (w : Word) : Nat := ((List.range w.length).map d.count).sum + d.rankFrom d.initialState w

end Dandy
