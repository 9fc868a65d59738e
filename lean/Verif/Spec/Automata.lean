import Verif.Model.Types
/-!
# Specification of automata: validity, runs, paths, languages

Nothing here uses functions of the model, only its data types.
-/

namespace Dandy

/-- A word is a list of alphabet elements. -/
abbrev Word := List Str

/-- A valid DFA: what every DFA obtainable through the library satisfies (see C44). -/
structure Dfa.WF (d : Dfa) : Prop where
  alphabet_nodup : d.alphabet.Nodup
  names_nodup : (d.states.map (·.name)).Nodup
  row_len : ∀ s ∈ d.states, s.transitions.length = d.alphabet.length
  targets : ∀ s ∈ d.states, ∀ t ∈ s.transitions, t < d.states.length
  init_lt : d.initialState < d.states.length
  init_flag : ∀ i s, d.states[i]? = some s → (s.initial = true ↔ i = d.initialState)

/-- `d.Run q w r`: reading the word `w` from state `q` along the transition table ends in `r`. -/
inductive Dfa.Run (d : Dfa) : Nat → Word → Nat → Prop
  | nil (q : Nat) : Dfa.Run d q [] q
  | cons {q i t r : Nat} {e : Str} {w : Word} {s : DfaState} :
      d.states[q]? = some s → d.alphabet[i]? = some e → s.transitions[i]? = some t →
      Dfa.Run d t w r → Dfa.Run d q (e :: w) r

/-- State `q` of `d` exists and is accepting. -/
def Dfa.Acc (d : Dfa) (q : Nat) : Prop := ∃ s, d.states[q]? = some s ∧ s.accepting = true

/-- The language of a DFA: words whose run from the initial state ends in an accepting state. -/
def Dfa.Lang (d : Dfa) (w : Word) : Prop := ∃ q, d.Run d.initialState w q ∧ d.Acc q

/-- No word leads exactly one of the two states to an accepting state. -/
def Dfa.Indist (d : Dfa) (p q : Nat) : Prop :=
  ∀ w, (∃ r, d.Run p w r ∧ d.Acc r) ↔ (∃ r, d.Run q w r ∧ d.Acc r)

/-- `φ` is an isomorphism between two DFAs over the same alphabet: identical up to the names and the order of states. -/
structure Dfa.Iso (m o : Dfa) (φ : Nat → Nat) : Prop where
  alphabet : m.alphabet = o.alphabet
  count : m.states.length = o.states.length
  maps : ∀ q < m.states.length, φ q < o.states.length
  inj : ∀ p < m.states.length, ∀ q < m.states.length, φ p = φ q → p = q
  init : φ m.initialState = o.initialState
  acc : ∀ (q : Nat) (s t : DfaState), m.states[q]? = some s → o.states[φ q]? = some t → t.accepting = s.accepting
  trans : ∀ (q : Nat) (s t : DfaState), m.states[q]? = some s → o.states[φ q]? = some t →
    t.transitions = s.transitions.map φ

/-- A valid NFA. -/
structure Nfa.WF (n : Nfa) : Prop where
  alphabet_nodup : n.alphabet.Nodup
  names_nodup : (n.states.map (·.name)).Nodup
  row_len : ∀ s ∈ n.states, s.transitions.length = n.alphabet.length
  targets : ∀ s ∈ n.states, ∀ ts ∈ s.transitions, ∀ t ∈ ts, t < n.states.length
  eps_targets : ∀ s ∈ n.states, ∀ t ∈ s.epsilonTransitions, t < n.states.length
  init_lt : n.initialState < n.states.length
  init_flag : ∀ i s, n.states[i]? = some s → (s.initial = true ↔ i = n.initialState)

/-- `n.Path q w r`: some sequence of moves of the NFA from `q` to `r` reads exactly `w`;
epsilon moves may be taken anywhere. -/
inductive Nfa.Path (n : Nfa) : Nat → Word → Nat → Prop
  | nil (q : Nat) : Nfa.Path n q [] q
  | eps {q t r : Nat} {w : Word} {s : NfaState} :
      n.states[q]? = some s → t ∈ s.epsilonTransitions → Nfa.Path n t w r → Nfa.Path n q w r
  | step {q i t r : Nat} {e : Str} {w : Word} {s : NfaState} {ts : List Nat} :
      n.states[q]? = some s → n.alphabet[i]? = some e → s.transitions[i]? = some ts → t ∈ ts →
      Nfa.Path n t w r → Nfa.Path n q (e :: w) r

def Nfa.Acc (n : Nfa) (q : Nat) : Prop := ∃ s, n.states[q]? = some s ∧ s.accepting = true

/-- The language of an NFA: words labelling some path from the initial state to an accepting state. -/
def Nfa.Lang (n : Nfa) (w : Word) : Prop := ∃ q, n.Path n.initialState w q ∧ n.Acc q

/-- `n.Move q e t`: a single transition (no epsilon moves) from `q` to `t` reading `e`. -/
def Nfa.Move (n : Nfa) (q : Nat) (e : Str) (t : Nat) : Prop :=
  ∃ (i : Nat) (s : NfaState) (ts : List Nat), n.states[q]? = some s ∧ n.alphabet[i]? = some e ∧
    s.transitions[i]? = some ts ∧ t ∈ ts

/-- Some run on `w` gets stuck: after a prefix of `w` it is in a state without transition for the next element. -/
def Nfa.Stuck (n : Nfa) (w : Word) : Prop :=
  ∃ (u v : Word) (e : Str) (q : Nat), w = u ++ e :: v ∧ n.Path n.initialState u q ∧ ¬ ∃ t, n.Move q e t

/-- The possible outcomes of runs on `w`: the state in which a complete run ends, or `none` if some run got stuck. -/
def Nfa.Outcome (n : Nfa) (w : Word) : Option NfaState → Prop
  | some s => ∃ q : Nat, n.Path n.initialState w q ∧ n.states[q]? = some s
  | none => n.Stuck w

/-- All elements of the word belong to the alphabet. -/
def Over (alphabet : List Str) (w : Word) : Prop := ∀ e ∈ w, e ∈ alphabet

instance (alphabet : List Str) (w : Word) : Decidable (Over alphabet w) :=
  inferInstanceAs (Decidable (∀ e ∈ w, e ∈ alphabet))

/-- Two alphabets have the same elements. -/
def SameElems (a b : List Str) : Prop := ∀ e, e ∈ a ↔ e ∈ b

end Dandy
