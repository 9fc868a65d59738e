import Verif.Model.Validate
import Verif.Model.Nom
/-!
# The text format of tables (dandy/src/parser/mod.rs:5-43), as a relation between texts and tables

Only the data types of the model and the character class `isWhitespace` are used, no parsers.
-/

namespace Dandy.TableText

/-- Spaces and tabs. -/
def Blanks (t : Str) : Prop := ∀ c ∈ t, c = ' ' ∨ c = '\t'

/-- A name: not empty, no white space, none of `#`, `{`, `}`, and no reserved word. -/
def Name (t : Str) : Prop :=
  t ≠ [] ∧ (∀ c ∈ t, isWhitespace c = false ∧ c ≠ '#' ∧ c ≠ '{' ∧ c ≠ '}') ∧
    t ≠ ['ε'] ∧ t ≠ ['e', 'p', 's'] ∧ t ≠ ['→'] ∧ t ≠ ['-', '>'] ∧ t ≠ ['*']

/-- What may be at the end of every line, and what an ignored line consists of: blanks and possibly a comment. -/
def Tail (t : Str) : Prop :=
  Blanks t ∨ ∃ b c, t = b ++ '#' :: c ∧ Blanks b ∧ '\n' ∉ c ∧ '\r' ∉ c

/-- The end of a line. -/
def Eol (t : Str) : Prop := t = ['\n'] ∨ t = ['\r', '\n']

/-- Items separated by blanks. -/
inductive Spaced {α : Type} (Item : α → Str → Prop) : List α → Str → Prop
  | one {a : α} {t : Str} : Item a t → Spaced Item [a] t
  | cons {a : α} {as : List α} {t b u : Str} : Item a t → Blanks b → b ≠ [] → Spaced Item as u → Spaced Item (a :: as) (t ++ b ++ u)

/-- A name stands for itself. -/
def NameItem (n t : Str) : Prop := n = t ∧ Name t

/-- An entry of the first line of an NFA table. -/
def HeadItem : NfaAlphabetEntry → Str → Prop
  | .element e, t => NameItem e t
  | .eps, t => t = ['ε'] ∨ t = ['e', 'p', 's']

/-- A set of states. -/
def SetItem (ns : List Str) (t : Str) : Prop :=
  ∃ b u b', t = '{' :: (b ++ u ++ b') ++ ['}'] ∧ Blanks b ∧ Blanks b' ∧ ((ns = [] ∧ u = []) ∨ Spaced NameItem ns u)

/-- The first line. -/
def HeadLine {α : Type} (Item : α → Str → Prop) (head : List α) (t : Str) : Prop :=
  ∃ b u l, t = b ++ u ++ l ∧ Blanks b ∧ Spaced Item head u ∧ Tail l

/-- An optional mark at the beginning of a line, followed by blanks. -/
def Mark (words : List Str) (flag : Bool) (t : Str) : Prop :=
  (flag = false ∧ t = []) ∨ (flag = true ∧ ∃ w b, w ∈ words ∧ t = w ++ b ∧ Blanks b ∧ b ≠ [])

/-- The line of a state. -/
def RowLine {τ : Type} (Entry : τ → Str → Prop) (initial accepting : Bool) (name : Str) (entries : List τ) (t : Str) : Prop :=
  ∃ b i a n b' u l, t = b ++ i ++ a ++ n ++ b' ++ u ++ l ∧ Blanks b ∧ Mark [['-', '>'], ['→']] initial i ∧
    Mark [['*']] accepting a ∧ NameItem name n ∧ Blanks b' ∧ b' ≠ [] ∧ Spaced Entry entries u ∧ Tail l

/-- Ignored lines, each with the end of the line. -/
inductive Skip : Str → Prop
  | nil : Skip []
  | cons {l e k : Str} : Tail l → Eol e → Skip k → Skip (l ++ e ++ k)

/-- The lines of the states, with ignored lines between them. -/
inductive Rows {σ : Type} (Row : σ → Str → Prop) : List σ → Str → Prop
  | one {a : σ} {t : Str} : Row a t → Rows Row [a] t
  | cons {a : σ} {as : List σ} {t e k u : Str} : Row a t → Eol e → Skip k → Rows Row as u → Rows Row (a :: as) (t ++ e ++ k ++ u)

/-- A whole text: ignored lines, the first line, ignored lines, the lines of the states, ignored lines; the last line may or
may not have an end-of-line mark. -/
def Text {α σ : Type} (Item : α → Str → Prop) (Row : σ → Str → Prop) (head : List α) (states : List σ) (t : Str) : Prop :=
  ∃ k h e k' r z, t = k ++ h ++ e ++ k' ++ r ++ z ∧ Skip k ∧ HeadLine Item head h ∧ Eol e ∧ Skip k' ∧ Rows Row states r ∧
    (z = [] ∨ ∃ e' k'' l, z = e' ++ k'' ++ l ∧ Eol e' ∧ Skip k'' ∧ Tail l)

/-- The line of a state of a DFA. -/
def DfaRow (s : ParsedDfaState) (t : Str) : Prop := RowLine NameItem s.initial s.accepting s.name s.transitions t

/-- The line of a state of an NFA. -/
def NfaRow (s : ParsedNfaState) (t : Str) : Prop := RowLine SetItem s.initial s.accepting s.name s.transitions t

/-- `t` is a text of the DFA table `p`. -/
def DfaText (p : ParsedDfa) (t : Str) : Prop := Text NameItem DfaRow p.head p.states t

/-- `t` is a text of the NFA table `p`. -/
def NfaText (p : ParsedNfa) (t : Str) : Prop := Text HeadItem NfaRow p.head p.states t

end Dandy.TableText

namespace Dandy

/-- The lines show the rows of a table with cells in columns: in every line, the cell of column `j` begins at the same place
`offs j` (counted in characters), two neighbouring cells are separated by one or more spaces, and the last cell is followed
by one space. -/
def AlignedLines (rows : List (List Str)) (lines : List Str) : Prop :=
  lines.length = rows.length ∧ ∃ offs : Nat → Nat, offs 0 = 0 ∧ ∀ (i j : Nat) row line cell,
    rows[i]? = some row → lines[i]? = some line → row[j]? = some cell →
    cell <+: line.drop (offs j) ∧
    (j + 1 < row.length → offs j + cell.length < offs (j + 1) ∧
      ∀ k : Nat, offs j + cell.length ≤ k → k < offs (j + 1) → line[k]? = some ' ') ∧
    (j + 1 = row.length → line.drop (offs j + cell.length) = [' '])

end Dandy
