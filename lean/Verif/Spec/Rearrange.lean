import Verif.Spec.Validate
/-! # What a table says, whatever the order of its lines and columns (only data types of the model are used) -/

namespace Dandy

/-- The columns with the given numbers, in this order. -/
def columns {α : Type} (σ : List Nat) (row : List α) : List α := σ.filterMap (row[·]?)

namespace ParsedDfa

/-- All lines have as many entries as the header. -/
def Rectangular (p : ParsedDfa) : Prop := ∀ s ∈ p.states, s.transitions.length = p.head.length

/-- `p'` has the lines and columns of `p` in another order. -/
def Rearranged (p p' : ParsedDfa) : Prop :=
  ∃ σ : List Nat, σ.Perm (List.range p.head.length) ∧ p'.head = columns σ p.head ∧
    p'.states.Perm (p.states.map (fun s => { s with transitions := columns σ s.transitions }))

/-- In the line of the state `n` and the column of the element `e` stands `t`. -/
def Entry (p : ParsedDfa) (n e t : Str) : Prop :=
  ∃ s ∈ p.states, s.name = n ∧ ∃ k : Nat, p.head[k]? = some e ∧ s.transitions[k]? = some t

/-- There is a line for the state `n` with these marks. -/
def Line (p : ParsedDfa) (n : Str) (initial accepting : Bool) : Prop :=
  ∃ s ∈ p.states, s.name = n ∧ s.initial = initial ∧ s.accepting = accepting

/-- The two tables say the same. -/
structure SameContent (p p' : ParsedDfa) : Prop where
  elements : ∀ e, e ∈ p.head ↔ e ∈ p'.head
  lines : ∀ n i a, p.Line n i a ↔ p'.Line n i a
  entries : ∀ n e t, p.Entry n e t ↔ p'.Entry n e t

end ParsedDfa

namespace ParsedNfa

/-- All lines have as many entries as the header. -/
def Rectangular (p : ParsedNfa) : Prop := ∀ s ∈ p.states, s.transitions.length = p.head.length

/-- `p'` has the lines and columns of `p` in another order, and in every entry the same targets, in whatever order and however often. -/
def Rearranged (p p' : ParsedNfa) : Prop :=
  ∃ (σ : List Nat) (rows : List ParsedNfaState), σ.Perm (List.range p.head.length) ∧ p'.head = columns σ p.head ∧
    List.Forall₂ (fun s r => r.name = s.name ∧ r.initial = s.initial ∧ r.accepting = s.accepting ∧
      List.Forall₂ (fun ts us => ∀ t, t ∈ ts ↔ t ∈ us) (columns σ s.transitions) r.transitions) p.states rows ∧
    p'.states.Perm rows

/-- In the line of the state `n` and the column of `e` (an element or epsilon), `t` is one of the targets. -/
def Entry (p : ParsedNfa) (n : Str) (e : NfaAlphabetEntry) (t : Str) : Prop :=
  ∃ s ∈ p.states, s.name = n ∧ ∃ (k : Nat) (ts : List Str), p.head[k]? = some e ∧ s.transitions[k]? = some ts ∧ t ∈ ts

/-- There is a line for the state `n` with these marks. -/
def Line (p : ParsedNfa) (n : Str) (initial accepting : Bool) : Prop :=
  ∃ s ∈ p.states, s.name = n ∧ s.initial = initial ∧ s.accepting = accepting

/-- The two tables say the same; a column for epsilon without targets says nothing. -/
structure SameContent (p p' : ParsedNfa) : Prop where
  elements : ∀ e, .element e ∈ p.head ↔ .element e ∈ p'.head
  lines : ∀ n i a, p.Line n i a ↔ p'.Line n i a
  entries : ∀ n e t, p.Entry n e t ↔ p'.Entry n e t

end ParsedNfa

/-- After the word `w` the DFA is in the state called `n`. -/
def Dfa.InState (d : Dfa) (w : Word) (n : Str) : Prop := ∃ q s, d.Run d.initialState w q ∧ d.states[q]? = some s ∧ s.name = n

/-- After the word `w` the NFA can be in the state called `n`. -/
def Nfa.InState (d : Nfa) (w : Word) (n : Str) : Prop := ∃ q s, d.Path d.initialState w q ∧ d.states[q]? = some s ∧ s.name = n

/-- From the state called `n` the word `w` leads the DFA to the state called `m`. -/
def Dfa.Walk (d : Dfa) (n : Str) (w : Word) (m : Str) : Prop :=
  ∃ q s r s', d.states[q]? = some s ∧ s.name = n ∧ d.Run q w r ∧ d.states[r]? = some s' ∧ s'.name = m

/-- From the state called `n` the word `w` can lead the NFA to the state called `m`. -/
def Nfa.Walk (d : Nfa) (n : Str) (w : Word) (m : Str) : Prop :=
  ∃ q s r s', d.states[q]? = some s ∧ s.name = n ∧ d.Path q w r ∧ d.states[r]? = some s' ∧ s'.name = m

end Dandy
