import Verif.Model.Validate
/-! # How many characters a table takes (for C106) -/

namespace Dandy

/-- The characters needed for some words one after the other, with one character after each of them. -/
def written (ws : List Str) : Nat := (ws.map (fun w => w.length + 1)).sum

/-- The characters needed for a DFA table without superfluous blanks, comments and marks. -/
def ParsedDfa.written (p : ParsedDfa) : Nat :=
  Dandy.written p.head + (p.states.map (fun s => s.name.length + 1 + Dandy.written s.transitions)).sum

/-- The characters needed for a word of the first line of an NFA table, and one more. -/
def NfaAlphabetEntry.written : NfaAlphabetEntry → Nat
  | .element e => e.length + 1
  | .eps => 2

/-- The characters needed for an NFA table without superfluous blanks, comments and marks (the brackets of a set count as one character, since the last
name in the set needs no character after it). -/
def ParsedNfa.written (p : ParsedNfa) : Nat :=
  (p.head.map (·.written)).sum + (p.states.map (fun s => s.name.length + 1 + (s.transitions.map (fun ts => 1 + Dandy.written ts)).sum)).sum

end Dandy
