import Mathlib.Data.List.Forall2
import Verif.Model.Validate
import Verif.Spec.Automata
/-! # What a legal table is and which automaton it describes (only data types of the model are used) -/

namespace Dandy

/-- Exactly one of the rows is marked as initial. -/
def OneInitial {σ : Type} (isInit : σ → Bool) (states : List σ) : Prop :=
  ∃ i : Nat, (∃ s, states[i]? = some s ∧ isInit s = true) ∧ ∀ (j : Nat) s, states[j]? = some s → isInit s = true → j = i

/-- A legal DFA table. -/
structure ParsedDfa.Legal (p : ParsedDfa) : Prop where
  head : p.head.Nodup
  names : (p.states.map (·.name)).Nodup
  width : ∀ s ∈ p.states, s.transitions.length = p.head.length
  targets : ∀ s ∈ p.states, ∀ t ∈ s.transitions, ∃ s' ∈ p.states, s'.name = t
  initial : OneInitial (·.initial) p.states

/-- The DFA has exactly the content of the table: the same rows in the same order, with targets given by name. -/
structure ParsedDfa.Describes (p : ParsedDfa) (d : Dfa) : Prop where
  alphabet : d.alphabet = p.head
  count : d.states.length = p.states.length
  rows : ∀ (i : Nat) s s', p.states[i]? = some s → d.states[i]? = some s' →
    s'.name = s.name ∧ s'.initial = s.initial ∧ s'.accepting = s.accepting ∧
    List.Forall₂ (fun j t => ∃ st, p.states[j]? = some st ∧ st.name = t) s'.transitions s.transitions
  initial : ∃ s, p.states[d.initialState]? = some s ∧ s.initial = true

/-- The elements of a header without the epsilon columns. -/
def ParsedNfa.elements (p : ParsedNfa) : List Str :=
  p.head.flatMap (fun e => match e with | .element s => [s] | .eps => [])

/-- A legal NFA table. -/
structure ParsedNfa.Legal (p : ParsedNfa) : Prop where
  elements : p.elements.Nodup
  eps : ∀ i j : Nat, p.head[i]? = some .eps → p.head[j]? = some .eps → i = j
  names : (p.states.map (·.name)).Nodup
  width : ∀ s ∈ p.states, s.transitions.length = p.head.length
  targets : ∀ s ∈ p.states, ∀ ts ∈ s.transitions, ∀ t ∈ ts, ∃ s' ∈ p.states, s'.name = t
  initial : OneInitial (·.initial) p.states

/-- The list of states given by a list of names. -/
def ParsedNfa.NamedBy (p : ParsedNfa) (js : List Nat) (ts : List Str) : Prop :=
  List.Forall₂ (fun j t => ∃ st, p.states[j]? = some st ∧ st.name = t) js ts

/-- The NFA has exactly the content of the table: the same rows in the same order; the column of each element gives the
transitions for it, the epsilon column (if any) the epsilon transitions. -/
structure ParsedNfa.Describes (p : ParsedNfa) (n : Nfa) : Prop where
  alphabet : n.alphabet = p.elements
  count : n.states.length = p.states.length
  flags : ∀ (i : Nat) s s', p.states[i]? = some s → n.states[i]? = some s' →
    s'.name = s.name ∧ s'.initial = s.initial ∧ s'.accepting = s.accepting ∧ s'.transitions.length = n.alphabet.length
  columns : ∀ (i k a : Nat) s s' e ts, p.states[i]? = some s → n.states[i]? = some s' → p.head[k]? = some (.element e) →
    s.transitions[k]? = some ts → n.alphabet[a]? = some e → ∃ js, s'.transitions[a]? = some js ∧ p.NamedBy js ts
  epsilon : ∀ (i k : Nat) s s' ts, p.states[i]? = some s → n.states[i]? = some s' → p.head[k]? = some .eps →
    s.transitions[k]? = some ts → p.NamedBy s'.epsilonTransitions ts
  noEpsilon : .eps ∉ p.head → ∀ s' ∈ n.states, s'.epsilonTransitions = []
  initial : ∃ s, p.states[n.initialState]? = some s ∧ s.initial = true

/-- The defect named by an error is present in a DFA table. -/
def ParsedDfa.HasDefect (p : ParsedDfa) : ParseError → Prop
  | .wrongNumberOfTransitions name has expected =>
    has ≠ expected ∧ expected = p.head.length ∧ ∃ s ∈ p.states, s.name = name ∧ s.transitions.length = has
  | .transitionDoesNotExist name target =>
    (∃ s ∈ p.states, s.name = name ∧ target ∈ s.transitions) ∧ ∀ s ∈ p.states, s.name ≠ target
  | .missingInitialState => ∀ s ∈ p.states, s.initial = false
  | .multipleInitialStates => ∃ (i j : Nat) (s t : ParsedDfaState), i ≠ j ∧ p.states[i]? = some s ∧ p.states[j]? = some t ∧
      s.initial = true ∧ t.initial = true
  | .duplicateAlphabetSymbol e => ∃ i j : Nat, i ≠ j ∧ p.head[i]? = some e ∧ p.head[j]? = some e
  | .duplicateStateDefinition name => ∃ (i j : Nat) (s t : ParsedDfaState), i ≠ j ∧ p.states[i]? = some s ∧ p.states[j]? = some t ∧
      s.name = name ∧ t.name = name

/-- The defect named by an error is present in an NFA table. -/
def ParsedNfa.HasDefect (p : ParsedNfa) : ParseError → Prop
  | .wrongNumberOfTransitions name has expected =>
    has ≠ expected ∧ expected = p.head.length ∧ ∃ s ∈ p.states, s.name = name ∧ s.transitions.length = has
  | .transitionDoesNotExist name target =>
    (∃ s ∈ p.states, s.name = name ∧ ∃ ts ∈ s.transitions, target ∈ ts) ∧ ∀ s ∈ p.states, s.name ≠ target
  | .missingInitialState => ∀ s ∈ p.states, s.initial = false
  | .multipleInitialStates => ∃ (i j : Nat) (s t : ParsedNfaState), i ≠ j ∧ p.states[i]? = some s ∧ p.states[j]? = some t ∧
      s.initial = true ∧ t.initial = true
  | .duplicateAlphabetSymbol e => ∃ i j : Nat, i ≠ j ∧
      ((p.head[i]? = some (.element e) ∧ p.head[j]? = some (.element e)) ∨
        (e = ['ε'] ∧ p.head[i]? = some .eps ∧ p.head[j]? = some .eps))
  | .duplicateStateDefinition name => ∃ (i j : Nat) (s t : ParsedNfaState), i ≠ j ∧ p.states[i]? = some s ∧ p.states[j]? = some t ∧
      s.name = name ∧ t.name = name

end Dandy
