import Verif.Spec.Automata
/-! # Specification of cleaning up: which states are dead -/

namespace Dandy

/-- One transition reading `e`, followed by any epsilon moves. -/
def Nfa.Reads (n : Nfa) (q : Nat) (e : Str) (t : Nat) : Prop := ∃ u, n.Move q e u ∧ n.Path u [] t

/-- The dead states as documented (dandy/src/nfa/mod.rs:688-691): neither accepting nor initial, and every transition, with the epsilon
moves after it, leads to a dead state. If `demoted`, the initial state is treated like the others. -/
inductive Nfa.Dead (n : Nfa) (demoted : Bool) : Nat → Prop
  | mk (q : Nat) (s : NfaState) : n.states[q]? = some s → s.accepting = false → (demoted = false → s.initial = false) →
      (∀ e t, n.Reads q e t → Nfa.Dead n demoted t) → Nfa.Dead n demoted q

/-- The automaton "effectively has multiple initial states": by epsilon moves, another state that is not dead can be reached from the
initial state. -/
def Nfa.ManyInitial (n : Nfa) : Prop := ∃ p, n.Path n.initialState [] p ∧ p ≠ n.initialState ∧ ¬ n.Dead false p

/-- There is a transition reading `e` from a state called `a` to a state called `b`. -/
def Nfa.NamedMove (n : Nfa) (a : Str) (e : Str) (b : Str) : Prop :=
  ∃ (q t : Nat) (s s' : NfaState), n.states[q]? = some s ∧ n.states[t]? = some s' ∧ s.name = a ∧ s'.name = b ∧ n.Move q e t

/-- What is seen of a state, but for its transitions. -/
def NfaState.look (s : NfaState) : Str × Bool × Bool := (s.name, s.initial, s.accepting)

end Dandy
