import Verif.Model.Types
/-!
# Model of dandy/src/table/mod.rs and of `to_table`/`ascii_table` (dandy/src/dfa/mod.rs, dandy/src/nfa/mod.rs)
-/

namespace Dandy

/-- dandy/src/table/mod.rs:4-8 `Table`. -/
structure Table where
  rowLen : List Nat
  rows : List (List Str)
deriving DecidableEq, Repr

namespace Table

/-- `Table::default()` (derived, dandy/src/table/mod.rs:4). -/
def empty : Table := ⟨[], []⟩

/-- The loop over `row_len` zipped with the row (dandy/src/table/mod.rs:15-18). -/
def zipMax : List Nat → List Str → List Nat
  | l :: ls, s :: ss => max l s.length :: zipMax ls ss
  | ls, _ => ls

/-- dandy/src/table/mod.rs:11-20 `Table::push_row`. -/
def pushRow (t : Table) (row : List Str) : Table :=
  let rl := if row.length > t.rowLen.length then t.rowLen ++ List.replicate (row.length - t.rowLen.length) 0 else t.rowLen
  ⟨zipMax rl row, t.rows ++ [row]⟩

/-- The closure `pad` (dandy/src/table/mod.rs:23-31). -/
def pad (s : Str) (l : Nat) : Str := if s.length < l then s ++ List.replicate (l - s.length) ' ' else s

/-- One row (dandy/src/table/mod.rs:35-46): each cell padded and followed by `sep`. -/
def rowString (widths : List Nat) (sep : Str) (row : List Str) : Str :=
  ((row.zip widths).map (fun x => pad x.1 x.2 ++ sep)).flatten

/-- The zipped lengths (dandy/src/table/mod.rs:39-42): the last one is replaced by 0. -/
def widths (t : Table) : List Nat := t.rowLen.take (t.rowLen.length - 1) ++ [0]

/-- dandy/src/table/mod.rs:22-50 `Table::to_string`; `none` stands for the overflow of `row_len.len() - 1`, which can only
happen when there are rows but all are empty. -/
def toString (t : Table) (sep : Str) : Option Str :=
  if !t.rows.isEmpty && t.rowLen.isEmpty then none
  else some (List.intercalate ['\n'] (t.rows.map (rowString t.widths sep)))

end Table

/-- The names of the target states; `none` if an index is out of range (dandy/src/dfa/mod.rs:886-888,
dandy/src/nfa/mod.rs:1210-1212). -/
def namesOf {σ : Type} (name : σ → Str) (states : List σ) (cs : List Nat) : Option (List Str) :=
  cs.mapM (fun c => states[c]?.map name)

/-- The cells of the line of a DFA state (dandy/src/dfa/mod.rs:874-888). -/
def Dfa.tableRow (d : Dfa) (arrow : Str) (s : DfaState) : Option (List Str) :=
  (namesOf (·.name) d.states s.transitions).map fun ns =>
    [if s.initial then arrow else [], if s.accepting then ['*'] else [], s.name] ++ ns

/-- dandy/src/dfa/mod.rs:867-892 `Dfa::gen_table`. -/
def Dfa.genTable (d : Dfa) (arrow : Str) : Option Str :=
  match d.states.mapM (d.tableRow arrow) with
  | none => none
  | some rows => (rows.foldl Table.pushRow (Table.empty.pushRow ([[], [], []] ++ d.alphabet))).toString [' ']

/-- dandy/src/dfa/mod.rs:857-859 `Dfa::to_table`. -/
def Dfa.toTable (d : Dfa) : Option Str := d.genTable ['→']

/-- dandy/src/dfa/mod.rs:863-865 `Dfa::ascii_table`. -/
def Dfa.asciiTable (d : Dfa) : Option Str := d.genTable ['-', '>']

/-- One cell with a set of states (dandy/src/nfa/mod.rs:1209-1215). -/
def Nfa.setCell (n : Nfa) (cs : List Nat) : Option Str :=
  (namesOf (·.name) n.states cs).map fun ns => '{' :: List.intercalate [' '] ns ++ ['}']

/-- The cells of the line of an NFA state (dandy/src/nfa/mod.rs:1204-1228). -/
def Nfa.tableRow (n : Nfa) (arrow : Str) (s : NfaState) : Option (List Str) :=
  ((s.epsilonTransitions :: s.transitions).mapM n.setCell).map fun cs =>
    [if s.initial then arrow else [], if s.accepting then ['*'] else [], s.name] ++ cs

/-- dandy/src/nfa/mod.rs:1197-1232 `Nfa::gen_table`. -/
def Nfa.genTable (n : Nfa) (eps arrow : Str) : Option Str :=
  match n.states.mapM (n.tableRow arrow) with
  | none => none
  | some rows => (rows.foldl Table.pushRow (Table.empty.pushRow ([[], [], [], eps] ++ n.alphabet))).toString [' ']

/-- dandy/src/nfa/mod.rs:1187-1189 `Nfa::to_table`. -/
def Nfa.toTable (n : Nfa) : Option Str := n.genTable ['ε'] ['→']

/-- dandy/src/nfa/mod.rs:1193-1195 `Nfa::ascii_table`. -/
def Nfa.asciiTable (n : Nfa) : Option Str := n.genTable ['e', 'p', 's'] ['-', '>']

end Dandy
