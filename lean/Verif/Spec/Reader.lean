import Verif.Spec.TableText
/-!
# Another way to read tables (for C103)

The text is split into lines and the lines into words, as one would do by hand; no parser of the model is used.
-/

namespace Dandy.Reader
open TableText (Name)

instance (t : Str) : Decidable (Name t) := by unfold Name; infer_instance

/-- The lines of a text. The end of a line is `\n` or `\r\n`; another carriage return is an error. -/
def lines : Str → Option (List Str)
  | [] => some [[]]
  | '\n' :: t => (lines t).map ([] :: ·)
  | '\r' :: '\n' :: t => (lines t).map ([] :: ·)
  | '\r' :: _ => none
  | c :: t => (lines t).map (fun ls => match ls with | [] => [[c]] | l :: ls => (c :: l) :: ls)

/-- The line without the comment. -/
def uncomment (l : Str) : Str := l.takeWhile (· ≠ '#')

/-- Spaces and tabs. -/
def blank (c : Char) : Bool := c = ' ' || c = '\t'

/-- The pieces between the blanks that are not inside braces. -/
def pieces : Bool → Str → List Str
  | _, [] => [[]]
  | inside, c :: t =>
    if inside = false ∧ blank c = true then [] :: pieces false t
    else match pieces (if c = '{' then true else if c = '}' then false else inside) t with
      | [] => [[c]]
      | p :: ps => (c :: p) :: ps

/-- The words of a line: separated by blanks; `{` … `}` is one word. -/
def words (l : Str) : List Str := (pieces false (uncomment l)).filter (· ≠ [])

/-- The lines that are not empty (after removing comments), as lists of words. -/
def table (t : Str) : Option (List (List Str)) := (lines t).map (fun ls => (ls.map words).filter (· ≠ []))

/-- Whether the first word is one of the given ones, and the words after it. -/
def mark (marks : List Str) : List Str → Bool × List Str
  | [] => (false, [])
  | w :: ws => if w ∈ marks then (true, ws) else (false, w :: ws)

/-- A name stands for itself. -/
def name (w : Str) : Option Str := if Name w then some w else none

/-- `{ a b c }`: the names between the braces. -/
def set (w : Str) : Option (List Str) :=
  match w with
  | '{' :: u => if u.getLast? = some '}' then ((pieces false u.dropLast).filter (· ≠ [])).mapM name else none
  | _ => none

/-- A word of the first line of an NFA. -/
def headWord (w : Str) : Option NfaAlphabetEntry :=
  if w = ['ε'] ∨ w = ['e', 'p', 's'] then some .eps else (name w).map .element

/-- A line of a state: `->` or `→` for the initial state, `*` for an accepting one, the name, and the entries (at least one). -/
def row {τ : Type} (entry : Str → Option τ) (ws : List Str) : Option (Bool × Bool × Str × List τ) :=
  let (initial, ws) := mark [['-', '>'], ['→']] ws
  let (accepting, ws) := mark [['*']] ws
  match ws with
  | n :: e :: es => do
    let n ← name n
    let ts ← (e :: es).mapM entry
    return (initial, accepting, n, ts)
  | _ => none

/-- The first line and the other lines (at least one). -/
def whole {α σ : Type} (head : Str → Option α) (state : List Str → Option σ) (t : Str) : Option (List α × List σ) := do
  match ← table t with
  | h :: r :: rs => return (← h.mapM head, ← (r :: rs).mapM state)
  | _ => none

/-- The DFA table in a text. -/
def dfa (t : Str) : Option ParsedDfa :=
  (whole name (fun ws => (row name ws).map (fun s => ⟨s.2.2.1, s.1, s.2.1, s.2.2.2⟩)) t).map (fun x => ⟨x.1, x.2⟩)

/-- The NFA table in a text. -/
def nfa (t : Str) : Option ParsedNfa :=
  (whole headWord (fun ws => (row set ws).map (fun s => ⟨s.2.2.1, s.1, s.2.1, s.2.2.2⟩)) t).map (fun x => ⟨x.1, x.2⟩)

end Dandy.Reader
