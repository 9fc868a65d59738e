import Verif.Model.ParseErrors
import Verif.Spec.TableText
/-!
# What an error of the parser of tables should say

The error is the rest of the text from some place on, with a code. The place is in the first line that is wrong.
-/

namespace Dandy.TableText

/-- The end of a line or of the text is next. -/
def AtEnd (r : Str) : Prop := r = [] ∨ ∃ e r', Eol e ∧ r = e ++ r'

/-- The text does not begin with a line of this kind. -/
def NoLine (Line : Str → Prop) (t : Str) : Prop := ∀ l r, t = l ++ r → AtEnd r → ¬ Line l

/-- The text does not begin with a first line of a table followed by the end of the line. -/
def NoHead {α : Type} (Item : α → Str → Prop) (t : Str) : Prop :=
  ∀ h e r head, t = h ++ e ++ r → HeadLine Item head h → ¬ Eol e

/-- What is wrong at the place of an error with this code: a name is missing, a reserved word is used as a name, blanks are missing, the end
of the line is missing, or (only in tables of NFAs) an entry of the first line or a brace is missing. Other codes are not used. -/
def Expected (nfa : Prop) (code : ErrorKind) (r : Str) : Prop :=
  match code with
  | .takeTill1 => ∀ c ∈ r.head?, isWhitespace c = true ∨ c = '#' ∨ c = '{' ∨ c = '}'
  | .verify => ∃ w r', r = w ++ r' ∧ (w = ['ε'] ∨ w = ['e', 'p', 's'] ∨ w = ['→'] ∨ w = ['-', '>'] ∨ w = ['*']) ∧
      ∀ c ∈ r'.head?, isWhitespace c = true ∨ c = '#' ∨ c = '{' ∨ c = '}'
  | .space => ∀ c ∈ r.head?, c ≠ ' ' ∧ c ≠ '\t'
  | .crLf => ∀ e r', r = e ++ r' → ¬ Eol e
  | .tag => nfa
  | _ => False

/-- `y` can be completed to a line of this kind. -/
def Begins (Line : Str → Prop) (y : Str) : Prop := ∃ z, Line (y ++ z)

/-- `e` is the error for the text `t`, which is not a text of a table. -/
inductive FirstError {α σ : Type} (nfa : Prop) (Item : α → Str → Prop) (Row : σ → Str → Prop) (t : Str) (e : NomError) : Prop
  /-- After ignored lines there is no first line; the place is in this line, and what is before it in the line can be completed to a first
  line. -/
  | head (k y : Str) : t = k ++ y ++ e.input → Skip k → '\n' ∉ y → Begins (fun u => ∃ hd, HeadLine Item hd u) y →
      NoHead Item (y ++ e.input) → Expected nfa e.code e.input → FirstError nfa Item Row t e
  /-- After the first line and ignored lines there is no line of a state; the place is in this line, and what is before it in the line can
  be completed to a line of a state. -/
  | firstRow (k h l k' y : Str) (head : List α) : t = k ++ h ++ l ++ k' ++ y ++ e.input → Skip k → HeadLine Item head h → Eol l → Skip k' →
      '\n' ∉ y → Begins (fun u => ∃ s, Row s u) y → NoLine (fun u => ∃ s, Row s u) (y ++ e.input) → Expected nfa e.code e.input →
      FirstError nfa Item Row t e
  /-- There are only ignored lines, or only the first line and ignored lines; the place is the end of the text, and a name or a first entry
  is missing. -/
  | missing (k l : Str) : t = k ++ l → e.input = [] → Tail l → l ≠ [] → (Skip k ∨ ∃ k' h e' k'' head, k = k' ++ h ++ e' ++ k'' ∧ Skip k' ∧
      HeadLine Item head h ∧ Eol e' ∧ Skip k'') → Expected nfa e.code [] → FirstError nfa Item Row t e
  /-- What is before the place is a table. What follows is no ignored line, and, if it begins a line, no line of a state. -/
  | later (before : Str) (head : List α) (states : List σ) : t = before ++ e.input → e.input ≠ [] → e.code = .eof →
      Text Item Row head states before → NoLine Tail e.input → (before.getLast? = some '\n' → NoLine (fun u => ∃ s, Row s u) e.input) →
      FirstError nfa Item Row t e

end Dandy.TableText
