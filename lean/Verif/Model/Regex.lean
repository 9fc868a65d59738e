import Verif.Model.Nfa
/-!
# Model of dandy/src/regex/mod.rs
-/

namespace Dandy

/-- dandy/src/regex/mod.rs:72-77 `RegexChar`. -/
inductive RegexChar where
  | grapheme (g : Str)
  | epsilon
  | empty
deriving DecidableEq, Repr

/-- dandy/src/regex/mod.rs:59-70 `Regex`, `RegexTree` (`Regex` only wraps the tree). -/
inductive RegexTree where
  | seq (ts : List RegexTree)
  | alt (ts : List RegexTree)
  | rep (t : RegexTree)
  | chr (c : RegexChar)
deriving Repr

namespace RegexTree

/-- `grapheme_idx` (dandy/src/regex/mod.rs:109-112): the index of a grapheme, inserting it if it is new. The map is
kept as the list of its keys by index. -/
def graphemeIdx (g : Str) (chars : List Str) : Nat × List Str :=
  if g ∈ chars then (chars.idxOf g, chars) else (chars.length, chars ++ [g])

/-- A fresh state of `tree_to_nfa` (dandy/src/regex/mod.rs:222-228, 243-249). -/
def plainState (idx : Nat) : NfaState := ⟨numStr idx, false, false, [], []⟩

/-- Result of `tree_to_nfa` together with the mutable arguments: the states, `counter.state` (dandy/src/regex/mod.rs:79-98)
and the map of graphemes. -/
structure Built where
  states : List NfaState
  counter : Nat
  chars : List Str
deriving Repr, DecidableEq

mutual

/-- dandy/src/regex/mod.rs:211-309 `tree_to_nfa`. `c` is `counter.state`. -/
def treeToNfa : RegexTree → Nat → List Str → Nat → Built
  | seq ts, c, chars, sendTo =>
    match ts with
    | [] => ⟨[{ plainState c with epsilonTransitions := [sendTo] }], c + 1, chars⟩
    | t :: ts =>
      let b := seqLoop (t :: ts) (c + 1) chars sendTo
      ⟨{ plainState c with epsilonTransitions := [c + 1 + 1] } :: b.states, b.counter, b.chars⟩
  | alt ts, c, chars, sendTo =>
    let (eps, b) := altLoop ts (c + 1) chars sendTo
    ⟨{ plainState c with epsilonTransitions := eps } :: b.states, b.counter, b.chars⟩
  | rep t, c, chars, sendTo =>
    let b := treeToNfa t (c + 1) chars c
    ⟨{ plainState c with epsilonTransitions := [c + 1, sendTo] } :: b.states, b.counter, b.chars⟩
  | chr (.grapheme g), c, chars, sendTo =>
    let (cidx, chars) := graphemeIdx g chars
    ⟨[{ plainState c with transitions := List.replicate cidx [] ++ [[sendTo]] }], c + 1, chars⟩
  | chr .epsilon, c, chars, sendTo => ⟨[{ plainState c with epsilonTransitions := [sendTo] }], c + 1, chars⟩
  | chr .empty, c, chars, _ => ⟨[plainState c], c + 1, chars⟩

/-- The `flat_map` of the `Sequence` case (dandy/src/regex/mod.rs:238-259). -/
def seqLoop : List RegexTree → Nat → List Str → Nat → Built
  | [], c, chars, _ => ⟨[], c, chars⟩
  | t :: ts, c, chars, sendTo =>
    let b := treeToNfa t (c + 1) chars c
    let after := { plainState c with epsilonTransitions := [if ts.isEmpty then sendTo else b.counter + 1] }
    let b' := seqLoop ts b.counter b.chars sendTo
    ⟨after :: b.states ++ b'.states, b'.counter, b'.chars⟩

/-- The `flat_map` of the `Alt` case (dandy/src/regex/mod.rs:266-272): the epsilon transitions collected for the incoming
state, and the states. -/
def altLoop : List RegexTree → Nat → List Str → Nat → List Nat × Built
  | [], c, chars, _ => ([], ⟨[], c, chars⟩)
  | t :: ts, c, chars, sendTo =>
    let b := treeToNfa t c chars sendTo
    let (eps, b') := altLoop ts b.counter b.chars sendTo
    (c :: eps, ⟨b.states ++ b'.states, b'.counter, b'.chars⟩)

end

/-- `Vec::resize(len, vec![])` (dandy/src/regex/mod.rs:140). -/
def resize (len : Nat) (row : List (List Nat)) : List (List Nat) :=
  row.take len ++ List.replicate (len - row.length) []

/-- dandy/src/regex/mod.rs:104-155 `Regex::to_nfa`. -/
def toNfa (t : RegexTree) : Nfa :=
  let accepting : NfaState := ⟨numStr 0, false, true, [], []⟩
  let initial : NfaState := ⟨numStr 1, true, false, [2], []⟩
  let b := treeToNfa t 2 [] 0
  let all := accepting :: initial :: b.states
  { alphabet := b.chars
    states := all.map (fun s => { s with transitions := resize b.chars.length s.transitions })
    initialState := 1 }

/-- The characters escaped by `build_string` (dandy/src/regex/mod.rs:198); also `is_reserved_char`
(dandy/src/parser/regex.rs:104-106). -/
def reserved : List Char := ['(', ')', '∅', 'ε', '|', '*', '+', '\\']

/-- `str::len`: the number of UTF-8 bytes. Called at dandy/src/regex/mod.rs:197. -/
def byteLen (g : Str) : Nat := (g.map (fun c => c.utf8Size)).sum

/-- The text of a grapheme (dandy/src/regex/mod.rs:196-206). -/
def graphemeText (g : Str) : Str :=
  if byteLen g == 1 && reserved.contains (g.headD default) then '\\' :: g else g

mutual

/-- dandy/src/regex/mod.rs:158-209 `to_string`, `build_string`: the text appended for a tree. -/
def toText : RegexTree → Str
  | seq ts => seqText ts
  | alt ts => ['('] ++ altText ts ++ [')']
  | rep t => ['('] ++ toText t ++ [')'] ++ ['*']
  | chr .epsilon => ['ε']
  | chr .empty => ['∅']
  | chr (.grapheme g) => graphemeText g

/-- The loop of the `Sequence` case (dandy/src/regex/mod.rs:167-169). -/
def seqText : List RegexTree → Str
  | [] => []
  | t :: ts => toText t ++ seqText ts

/-- The loop of the `Alt` case (dandy/src/regex/mod.rs:173-180). -/
def altText : List RegexTree → Str
  | [] => []
  | t :: ts => toText t ++ altRest ts

/-- The alternatives after the first, each with its `|` (dandy/src/regex/mod.rs:176-179). -/
def altRest : List RegexTree → Str
  | [] => []
  | t :: ts => ['|'] ++ toText t ++ altRest ts

end

end RegexTree

end Dandy
