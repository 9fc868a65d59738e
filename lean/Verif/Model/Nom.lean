import Verif.Model.Types
/-!
# Model of the nom 7.1.3 combinators used by dandy/src/parser

nom is a dependency whose source is not in /repo; the definitions below follow its documentation and are part of the
trusted base. A parser gives `none` for a recoverable error (`Err::Error`, the only kind used by dandy), and otherwise a
value and the rest of the input. Which error is reported is not modelled.
-/

namespace Dandy

/-- A nom parser on `&str` (the `IResult` of dandy/src/parser/fa.rs:8 and dandy/src/parser/regex.rs:8); the result is
value first, rest second. -/
abbrev P (α : Type) := Str → Option (α × Str)

namespace P

/-- `nom::combinator::map` (used in dandy/src/parser/regex.rs:14). -/
def map {α β : Type} (f : α → β) (p : P α) : P β := fun s =>
  match p s with
  | none => none
  | some (a, r) => some (f a, r)

/-- Two parsers one after the other: `Parser::and`, `nom::sequence::pair`, `tuple` (used in dandy/src/parser/regex.rs:47,
dandy/src/parser/fa.rs:14,45). -/
def pair {α β : Type} (p : P α) (q : P β) : P (α × β) := fun s =>
  match p s with
  | none => none
  | some (a, r) =>
    match q r with
    | none => none
    | some (b, r') => some ((a, b), r')

/-- `nom::sequence::preceded` (dandy/src/parser/regex.rs:84). -/
def preceded {α β : Type} (p : P α) (q : P β) : P β := map (·.2) (pair p q)

/-- `nom::sequence::terminated` (dandy/src/parser/fa.rs:15). -/
def terminated {α β : Type} (p : P α) (q : P β) : P α := map (·.1) (pair p q)

/-- `nom::sequence::delimited` (dandy/src/parser/regex.rs:47). -/
def delimited {α β γ : Type} (p : P α) (q : P β) (r : P γ) : P β := preceded p (terminated q r)

/-- `nom::branch::alt` for two parsers (dandy/src/parser/regex.rs:30); longer tuples are nested. -/
def alt {α : Type} (p q : P α) : P α := fun s =>
  match p s with
  | none => q s
  | some x => some x

/-- `nom::combinator::opt` (dandy/src/parser/regex.rs:47). -/
def opt {α : Type} (p : P α) : P (Option α) := fun s =>
  match p s with
  | none => some (none, s)
  | some (a, r) => some (some a, r)

/-- `nom::combinator::verify` (dandy/src/parser/regex.rs:76). -/
def verify {α : Type} (p : P α) (f : α → Bool) : P α := fun s =>
  match p s with
  | none => none
  | some (a, r) => if f a then some (a, r) else none

/-- `nom::combinator::value` (dandy/src/parser/regex.rs:98). -/
def value {α β : Type} (b : β) (p : P α) : P β := map (fun _ => b) p

/-- `nom::combinator::recognize` (dandy/src/parser/fa.rs:153): the consumed text. -/
def recognize {α : Type} (p : P α) : P Str := fun s =>
  match p s with
  | none => none
  | some (_, r) => some (s.take (s.length - r.length), r)

/-- `nom::character::complete::char` and `one_of` (dandy/src/parser/regex.rs:23,47): one character of a given list. -/
def oneOf (cs : List Char) : P Char := fun s =>
  match s with
  | [] => none
  | c :: r => if cs.contains c then some (c, r) else none

/-- `nom::bytes::complete::tag` (dandy/src/parser/fa.rs:113). -/
def tag (t : Str) : P Str := fun s => if t.isPrefixOf s then some (t, s.drop t.length) else none

/-- The longest prefix without a character satisfying `f`, possibly empty; used for `space0`, `not_line_ending`, `take_till1`.
dandy/src/parser/fa.rs:29, dandy/src/parser/fa.rs:118, dandy/src/parser/fa.rs:164. -/
def takeTill (f : Char → Bool) : P Str := fun s => some (s.takeWhile (fun c => !f c), s.dropWhile (fun c => !f c))

/-- `nom::bytes::complete::take_till1` (dandy/src/parser/fa.rs:118): as `takeTill`, but fails on an empty prefix. -/
def takeTill1 (f : Char → Bool) : P Str := verify (takeTill f) (fun t => !t.isEmpty)

/-- Blank characters of `space0`, `space1`. dandy/src/parser/fa.rs:29-31. -/
def isBlank (c : Char) : Bool := c == ' ' || c == '\t'

/-- `nom::character::complete::space0` (dandy/src/parser/fa.rs:29). -/
def space0 : P Str := takeTill (fun c => !isBlank c)

/-- `nom::character::complete::space1` (dandy/src/parser/fa.rs:31). -/
def space1 : P Str := takeTill1 (fun c => !isBlank c)

/-- `nom::character::complete::line_ending` (dandy/src/parser/fa.rs:15): `"\n"` or `"\r\n"`. -/
def lineEnding : P Str := alt (tag ['\n']) (tag ['\r', '\n'])

/-- `nom::character::complete::not_line_ending` (dandy/src/parser/fa.rs:164): everything up to the first `'\n'` or `'\r'`; a
`'\r'` must be followed by `'\n'`, otherwise the parser fails. -/
def notLineEnding : P Str := fun s =>
  let t := s.takeWhile (fun c => !(c == '\n' || c == '\r'))
  let r := s.dropWhile (fun c => !(c == '\n' || c == '\r'))
  match r with
  | '\r' :: '\n' :: _ => some (t, r)
  | '\r' :: _ => none
  | _ => some (t, r)

/-- `nom::combinator::eof` (dandy/src/parser/fa.rs:153). -/
def eof : P Str := fun s => if s.isEmpty then some ([], []) else none

/-- The loop of `many0`. `fuel` bounds the number of rounds; every round consumes, so `length + 1` rounds always suffice
(running out of fuel is a failure here; it is shown never to happen). Called at
dandy/src/parser/fa.rs:13, dandy/src/parser/fa.rs:17, dandy/src/parser/fa.rs:21. -/
def many0Loop {α : Type} (p : P α) : Nat → P (List α)
  | 0, _ => none
  | fuel + 1, s =>
    match p s with
    | none => some ([], s)
    | some (a, r) =>
      if r.length == s.length then none
      else
        match many0Loop p fuel r with
        | none => none
        | some (as, r') => some (a :: as, r')

/-- `nom::multi::many0` (dandy/src/parser/fa.rs:13): repeats until the parser fails; an error if it succeeds without consuming. -/
def many0 {α : Type} (p : P α) : P (List α) := fun s => many0Loop p (s.length + 1) s

/-- `nom::multi::many1` (dandy/src/parser/regex.rs:30). -/
def many1 {α : Type} (p : P α) : P (List α) := map (fun x => x.1 :: x.2) (pair p (many0 p))

/-- The loop of `separated_list0/1` after the first element: separator and element; stops in front of the separator when
either fails; an error if the separator consumes nothing. Called at dandy/src/parser/fa.rs:18,
dandy/src/parser/fa.rs:30, dandy/src/parser/fa.rs:51, dandy/src/parser/fa.rs:126,
dandy/src/parser/regex.rs:23. -/
def sepLoop {α β : Type} (sep : P β) (p : P α) : Nat → P (List α)
  | 0, _ => none
  | fuel + 1, s =>
    match sep s with
    | none => some ([], s)
    | some (_, r) =>
      if r.length == s.length then none
      else
        match p r with
        | none => some ([], s)
        | some (a, r') =>
          match sepLoop sep p fuel r' with
          | none => none
          | some (as, r'') => some (a :: as, r'')

/-- `nom::multi::separated_list1` (dandy/src/parser/regex.rs:23). -/
def separatedList1 {α β : Type} (sep : P β) (p : P α) : P (List α) := fun s =>
  match p s with
  | none => none
  | some (a, r) =>
    match sepLoop sep p (r.length + 1) r with
    | none => none
    | some (as, r') => some (a :: as, r')

/-- `nom::multi::separated_list0` (dandy/src/parser/fa.rs:126). -/
def separatedList0 {α β : Type} (sep : P β) (p : P α) : P (List α) := fun s =>
  match p s with
  | none => some ([], s)
  | some (a, r) =>
    match sepLoop sep p (r.length + 1) r with
    | none => none
    | some (as, r') => some (a :: as, r')

/-- `nom::combinator::all_consuming` (dandy/src/parser/mod.rs:103) with `finish` and dropping the (empty) rest. -/
def allConsuming {α : Type} (p : P α) : Str → Option α := fun s =>
  match p s with
  | none => none
  | some (a, r) => if r.isEmpty then some a else none

end P

/-- `char::is_whitespace`: the characters with the Unicode property White_Space. Called at
dandy/src/parser/fa.rs:118, dandy/src/parser/fa.rs:133. -/
def isWhitespace (c : Char) : Bool :=
  (9 ≤ c.toNat && c.toNat ≤ 13) || c.toNat == 0x20 || c.toNat == 0x85 || c.toNat == 0xA0 || c.toNat == 0x1680 ||
    (0x2000 ≤ c.toNat && c.toNat ≤ 0x200A) || c.toNat == 0x2028 || c.toNat == 0x2029 || c.toNat == 0x202F ||
    c.toNat == 0x205F || c.toNat == 0x3000

/-- `str::trim` (used in dandy/src/parser/regex.rs:14). -/
def trim (s : Str) : Str := ((s.dropWhile isWhitespace).reverse.dropWhile isWhitespace).reverse

end Dandy
