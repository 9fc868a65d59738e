import Verif.Model.Regex
import Verif.Spec.Reproducible
import Mathlib.Data.List.Basic
/-!
# Specification: other letters, other names
-/

namespace Dandy

/-- The same DFA, with other elements in the alphabet (`f`) and other names of states (`g`). -/
def Dfa.rename (f g : Str → Str) (d : Dfa) : Dfa :=
  { d with alphabet := d.alphabet.map f, states := d.states.map (fun s => { s with name := g s.name }) }

/-- The same NFA, with other elements in the alphabet (`f`) and other names of states (`g`). -/
def Nfa.rename (f g : Str → Str) (n : Nfa) : Nfa :=
  { n with alphabet := n.alphabet.map f, states := n.states.map (fun s => { s with name := g s.name }) }

/-- Writing other letters in an automaton. -/
abbrev Dfa.letters (f : Str → Str) (d : Dfa) : Dfa := d.rename f id

/-- Writing other letters in an automaton. -/
abbrev Nfa.letters (f : Str → Str) (n : Nfa) : Nfa := n.rename f id

mutual

/-- Writing other letters in a regular expression. -/
def RegexTree.letters (f : Str → Str) : RegexTree → RegexTree
  | .seq ts => .seq (RegexTree.lettersList f ts)
  | .alt ts => .alt (RegexTree.lettersList f ts)
  | .rep t => .rep (RegexTree.letters f t)
  | .chr (.grapheme g) => .chr (.grapheme (f g))
  | .chr .epsilon => .chr .epsilon
  | .chr .empty => .chr .empty

/-- Writing other letters in several regular expressions. -/
def RegexTree.lettersList (f : Str → Str) : List RegexTree → List RegexTree
  | [] => []
  | t :: ts => RegexTree.letters f t :: RegexTree.lettersList f ts

end

/-- Two calls that may panic or fail: both do, or neither does and the results are related. -/
def BothOr {α : Type} (R : α → α → Prop) : Option α → Option α → Prop
  | none, none => True
  | some a, some b => R a b
  | _, _ => False

end Dandy
