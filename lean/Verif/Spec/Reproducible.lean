import Verif.Model.Types
import Mathlib.Data.List.Basic
/-!
# Specification: results that differ only in names, or only in the order in which targets are listed
-/

namespace Dandy

/-- Two DFAs differ at most in the names of their states: the same states in the same order. -/
def Dfa.SameButNames (a b : Dfa) : Prop :=
  a.alphabet = b.alphabet ∧ a.initialState = b.initialState ∧
  List.Forall₂ (fun s t : DfaState => s.initial = t.initial ∧ s.accepting = t.accepting ∧ s.transitions = t.transitions)
    a.states b.states

/-- Two NFAs differ at most in the names of their states: the same states in the same order. -/
def Nfa.SameButNames (a b : Nfa) : Prop :=
  a.alphabet = b.alphabet ∧ a.initialState = b.initialState ∧
  List.Forall₂ (fun s t : NfaState => s.initial = t.initial ∧ s.accepting = t.accepting ∧
    s.transitions = t.transitions ∧ s.epsilonTransitions = t.epsilonTransitions) a.states b.states

/-- Two states with the same name and flags whose lists of targets differ at most in their order. -/
def NfaState.SameButOrder (s t : NfaState) : Prop :=
  s.name = t.name ∧ s.initial = t.initial ∧ s.accepting = t.accepting ∧
  s.epsilonTransitions.Perm t.epsilonTransitions ∧ List.Forall₂ List.Perm s.transitions t.transitions

/-- Two NFAs differ at most in the order in which the targets of a transition are listed. -/
def Nfa.SameButOrder (a b : Nfa) : Prop :=
  a.alphabet = b.alphabet ∧ a.initialState = b.initialState ∧ List.Forall₂ NfaState.SameButOrder a.states b.states

end Dandy
