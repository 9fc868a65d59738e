import Verif.Model.Chars
import Verif.Model.FaParser
import Verif.Model.RegexParser
/-!
# The parsers of dandy/src/parser again, with the errors they report

`Verif/Model/Nom.lean`, `FaParser.lean` and `RegexParser.lean` only say whether a parser fails. Here the same functions return nom's error:
the rest of the input at the place of the error and the code. nom 7.1.3 is not in /repo; which error a combinator reports follows its
documentation and is part of the trusted base. `Incomplete` does not exist here, since only the `complete` versions are used
(dandy/src/parser/fa.rs:3-4, dandy/src/parser/regex.rs:3-4), so `finish` cannot panic.
-/

namespace Dandy

/-- `nom::error::ErrorKind`, those of the combinators used (dandy/src/parser/fa.rs:2-7, dandy/src/parser/regex.rs:2-7). -/
inductive ErrorKind where
  | tag | char | oneOf | space | takeTill1 | verify | crLf | eof | fail | many0 | many1 | separatedList
deriving DecidableEq, Repr

/-- `nom::error::Error<&str>` (dandy/src/parser/mod.rs:62): the rest of the input, and the code. -/
structure NomError where
  input : Str
  code : ErrorKind
deriving DecidableEq, Repr

/-- `IResult` (dandy/src/parser/fa.rs:8): a value and the rest, or an error. -/
inductive Res (α : Type) where
  | ok (a : α) (rest : Str)
  | err (e : NomError)
deriving DecidableEq

/-- The result without the error. For dandy/src/parser/fa.rs:8, dandy/src/parser/regex.rs:8. -/
def Res.toOption {α : Type} : Res α → Option (α × Str)
  | .ok a r => some (a, r)
  | .err _ => none

/-- A parser which reports errors (dandy/src/parser/fa.rs:8, dandy/src/parser/regex.rs:8). -/
abbrev PE (α : Type) := Str → Res α

namespace PE
variable {α β γ : Type}

/-- An error at the beginning of the input (`from_error_kind`, used by every combinator that makes an error).
For dandy/src/parser/fa.rs:8, dandy/src/parser/regex.rs:8. -/
def error (k : ErrorKind) : PE α := fun s => .err ⟨s, k⟩

/-- `nom::combinator::map` (used in dandy/src/parser/fa.rs:11). -/
def map (f : α → β) (p : PE α) : PE β := fun s =>
  match p s with
  | .err e => .err e
  | .ok a r => .ok (f a) r

/-- `Parser::and`, `nom::sequence::pair`, `tuple` (used in dandy/src/parser/fa.rs:14,45): the first error. -/
def pair (p : PE α) (q : PE β) : PE (α × β) := fun s =>
  match p s with
  | .err e => .err e
  | .ok a r =>
    match q r with
    | .err e => .err e
    | .ok b r' => .ok (a, b) r'

/-- `nom::sequence::preceded` (used in dandy/src/parser/fa.rs:16). -/
def preceded (p : PE α) (q : PE β) : PE β := map (·.2) (pair p q)

/-- `nom::sequence::terminated` (used in dandy/src/parser/fa.rs:15). -/
def terminated (p : PE α) (q : PE β) : PE α := map (·.1) (pair p q)

/-- `nom::sequence::delimited` (used in dandy/src/parser/fa.rs:12). -/
def delimited (p : PE α) (q : PE β) (r : PE γ) : PE β := preceded p (terminated q r)

/-- `nom::branch::alt` (used in dandy/src/parser/fa.rs:32): the error of the last alternative (`or` and `append` of `Error`). -/
def alt (p q : PE α) : PE α := fun s =>
  match p s with
  | .err _ => q s
  | .ok a r => .ok a r

/-- `nom::combinator::opt` (used in dandy/src/parser/fa.rs:46): no error. -/
def opt (p : PE α) : PE (Option α) := fun s =>
  match p s with
  | .err _ => .ok none s
  | .ok a r => .ok (some a) r

/-- `nom::combinator::verify` (used in dandy/src/parser/fa.rs:117): the error is at the beginning. -/
def verify (p : PE α) (f : α → Bool) : PE α := fun s =>
  match p s with
  | .err e => .err e
  | .ok a r => if f a then .ok a r else .err ⟨s, .verify⟩

/-- `nom::combinator::value` (used in dandy/src/parser/fa.rs:34). -/
def value (b : β) (p : PE α) : PE β := map (fun _ => b) p

/-- `nom::combinator::recognize` (used in dandy/src/parser/fa.rs:153). -/
def recognize (p : PE α) : PE Str := fun s =>
  match p s with
  | .err e => .err e
  | .ok _ r => .ok (s.take (s.length - r.length)) r

/-- `nom::character::complete::char` and `one_of` (used in dandy/src/parser/regex.rs:23,47), with the code of the error. -/
def oneOf (k : ErrorKind) (cs : List Char) : PE Char := fun s =>
  match s with
  | [] => .err ⟨s, k⟩
  | c :: r => if cs.contains c then .ok c r else .err ⟨s, k⟩

/-- `nom::bytes::complete::tag` (used in dandy/src/parser/fa.rs:113). -/
def tag (t : Str) : PE Str := fun s => if t.isPrefixOf s then .ok t (s.drop t.length) else .err ⟨s, .tag⟩

/-- The longest prefix without a character satisfying `f`; an error with the given code if it is empty.
Called at dandy/src/parser/fa.rs:118, dandy/src/parser/fa.rs:133. -/
def takeTill1 (k : ErrorKind) (f : Char → Bool) : PE Str := fun s =>
  if (s.takeWhile (fun c => !f c)).isEmpty then .err ⟨s, k⟩
  else .ok (s.takeWhile (fun c => !f c)) (s.dropWhile (fun c => !f c))

/-- `nom::character::complete::space0` (used in dandy/src/parser/fa.rs:29): no error. -/
def space0 : PE Str := fun s => .ok (s.takeWhile P.isBlank) (s.dropWhile P.isBlank)

/-- `nom::character::complete::space1` (used in dandy/src/parser/fa.rs:31). -/
def space1 : PE Str := takeTill1 .space (fun c => !P.isBlank c)

/-- `nom::character::complete::line_ending` (used in dandy/src/parser/fa.rs:15). -/
def lineEnding : PE Str := fun s =>
  match s with
  | '\n' :: r => .ok ['\n'] r
  | '\r' :: '\n' :: r => .ok ['\r', '\n'] r
  | _ => .err ⟨s, .crLf⟩

/-- `nom::character::complete::not_line_ending` (used in dandy/src/parser/fa.rs:164). -/
def notLineEnding : PE Str := fun s =>
  let t := s.takeWhile (fun c => !(c == '\n' || c == '\r'))
  let r := s.dropWhile (fun c => !(c == '\n' || c == '\r'))
  match r with
  | '\r' :: '\n' :: _ => .ok t r
  | '\r' :: _ => .err ⟨s, .tag⟩
  | _ => .ok t r

/-- `nom::combinator::eof` (used in dandy/src/parser/fa.rs:153). -/
def eof : PE Str := fun s => if s.isEmpty then .ok [] [] else .err ⟨s, .eof⟩

/-- The loop of `many0` and `many1` (used in dandy/src/parser/fa.rs:13,18). `fuel` bounds the number of rounds (always enough: no error has the
code `Many0`). -/
def many0Loop (p : PE α) : Nat → PE (List α)
  | 0, s => .err ⟨s, .many0⟩
  | fuel + 1, s =>
    match p s with
    | .err _ => .ok [] s
    | .ok a r =>
      if r.length == s.length then .err ⟨s, .many0⟩
      else
        match many0Loop p fuel r with
        | .err e => .err e
        | .ok as r' => .ok (a :: as) r'

/-- `nom::multi::many0` (used in dandy/src/parser/fa.rs:13). -/
def many0 (p : PE α) : PE (List α) := fun s => many0Loop p (s.length + 1) s

/-- `nom::multi::many1` (used in dandy/src/parser/fa.rs:18): the error of the first element. -/
def many1 (p : PE α) : PE (List α) := map (fun x => x.1 :: x.2) (pair p (many0 p))

/-- The loop of `separated_list0` and `separated_list1` (used in dandy/src/parser/fa.rs:18,126) after the first element. -/
def sepLoop (sep : PE β) (p : PE α) : Nat → PE (List α)
  | 0, s => .err ⟨s, .separatedList⟩
  | fuel + 1, s =>
    match sep s with
    | .err _ => .ok [] s
    | .ok _ r =>
      if r.length == s.length then .err ⟨r, .separatedList⟩
      else
        match p r with
        | .err _ => .ok [] s
        | .ok a r' =>
          match sepLoop sep p fuel r' with
          | .err e => .err e
          | .ok as r'' => .ok (a :: as) r''

/-- `nom::multi::separated_list1` (used in dandy/src/parser/fa.rs:18): the error of the first element. -/
def separatedList1 (sep : PE β) (p : PE α) : PE (List α) := fun s =>
  match p s with
  | .err e => .err e
  | .ok a r =>
    match sepLoop sep p (r.length + 1) r with
    | .err e => .err e
    | .ok as r' => .ok (a :: as) r'

/-- `nom::multi::separated_list0` (used in dandy/src/parser/fa.rs:126). -/
def separatedList0 (sep : PE β) (p : PE α) : PE (List α) := fun s =>
  match p s with
  | .err _ => .ok [] s
  | .ok a r =>
    match sepLoop sep p (r.length + 1) r with
    | .err e => .err e
    | .ok as r' => .ok (a :: as) r'

/-- `nom::combinator::all_consuming` with `finish` (dandy/src/parser/mod.rs:103-105). -/
def allConsuming (p : PE α) : Str → Except NomError α := fun s =>
  match p s with
  | .err e => .error e
  | .ok a r => if r.isEmpty then .ok a else .error ⟨r, .eof⟩

end PE

namespace FaE
open PE
open Fa (reserved endsName)

/-- dandy/src/parser/fa.rs:112-114 `eps`. -/
def eps : PE Unit := map (fun _ => ()) (alt (tag ['ε']) (tag ['e', 'p', 's']))

/-- dandy/src/parser/fa.rs:116-121 `alphabet_elem`. -/
def alphabetElem : PE Str := verify (takeTill1 .takeTill1 endsName) (fun elem => !reserved.contains elem)

/-- dandy/src/parser/fa.rs:131-136 `state_name`. -/
def stateName : PE Str := verify (takeTill1 .takeTill1 endsName) (fun elem => !reserved.contains elem)

/-- dandy/src/parser/fa.rs:123-129 `state_set`. -/
def stateSet : PE (List Str) :=
  delimited (tag ['{']) (delimited space0 (separatedList0 space1 stateName) space0) (tag ['}'])

/-- dandy/src/parser/fa.rs:138-140 `accepting`. -/
def accepting : PE Unit := value () (tag ['*'])

/-- dandy/src/parser/fa.rs:142-144 `arrow`. -/
def arrow : PE Unit := map (fun _ => ()) (alt (tag ['-', '>']) (tag ['→']))

/-- dandy/src/parser/fa.rs:163-165 `comment`. -/
def comment : PE Unit := value () (pair (tag ['#']) notLineEnding)

/-- dandy/src/parser/fa.rs:159-161 `space_comment`. -/
def spaceComment : PE Unit := value () (pair space0 (opt comment))

/-- dandy/src/parser/fa.rs:146-157 `space_comment_line`. -/
def spaceCommentLine : PE Unit :=
  value () (verify (recognize (terminated spaceComment (alt lineEnding eof))) (fun consumed => !consumed.isEmpty))

/-- dandy/src/parser/fa.rs:27-39 `nfa_head` and 81-87 `dfa_head`. -/
def faHead {α : Type} (item : PE α) : PE (List α) := delimited space0 (separatedList1 space1 item) spaceComment

/-- dandy/src/parser/fa.rs:33-34, the entries of `nfa_head`. -/
def nfaHeadItem : PE NfaAlphabetEntry := alt (map NfaAlphabetEntry.element alphabetElem) (value NfaAlphabetEntry.eps eps)

/-- dandy/src/parser/fa.rs:42-54 (`nfa_line`) and 90-102 (`dfa_line`). -/
def faLine {τ : Type} (entry : PE τ) : PE ((Option Unit × Option Unit) × (Str × List τ)) :=
  delimited space0
    (pair (pair (opt (terminated arrow space1)) (opt (terminated accepting space1)))
      (pair (terminated stateName space1) (separatedList1 space1 entry)))
    spaceComment

/-- dandy/src/parser/fa.rs:89-110 `dfa_line`. -/
def dfaLine : PE ParsedDfaState := map (fun x => ⟨x.2.1, x.1.1.isSome, x.1.2.isSome, x.2.2⟩) (faLine stateName)

/-- dandy/src/parser/fa.rs:41-62 `nfa_line`. -/
def nfaLine : PE ParsedNfaState := map (fun x => ⟨x.2.1, x.1.1.isSome, x.1.2.isSome, x.2.2⟩) (faLine stateSet)

/-- dandy/src/parser/fa.rs:10-25 `full_nfa` and 64-79 `full_dfa`, without the final `map`. -/
def fullFa {α σ : Type} (head : PE (List α)) (line : PE σ) : PE (List α × List σ) :=
  delimited (many0 spaceCommentLine)
    (pair (terminated head lineEnding)
      (preceded (many0 spaceCommentLine) (separatedList1 (many1 spaceCommentLine) line)))
    (many0 spaceCommentLine)

/-- dandy/src/parser/fa.rs:64-79 `full_dfa`. -/
def fullDfa : PE ParsedDfa := map (fun x => ⟨x.1, x.2⟩) (fullFa (faHead alphabetElem) dfaLine)

/-- dandy/src/parser/fa.rs:10-25 `full_nfa`. -/
def fullNfa : PE ParsedNfa := map (fun x => ⟨x.1, x.2⟩) (fullFa (faHead nfaHeadItem) nfaLine)

/-- dandy/src/parser/mod.rs:102-106 `parser::dfa`. -/
def dfa : Str → Except NomError ParsedDfa := allConsuming fullDfa

/-- dandy/src/parser/mod.rs:111-115 `parser::nfa`. -/
def nfa : Str → Except NomError ParsedNfa := allConsuming fullNfa

end FaE

namespace RegexE
open PE
open RegexParser (wrapMultiple applyKleene isReservedChar)

/-- dandy/src/parser/regex.rs:88-95 `one_cluster`; `nom::combinator::fail` reports `Fail`. -/
def oneCluster (cl : Str → Nat) : PE RegexChar := fun s =>
  match s with
  | [] => .err ⟨s, .fail⟩
  | _ => .ok (.grapheme (s.take (cl s))) (s.drop (cl s))

/-- dandy/src/parser/regex.rs:75-81 `normal_char`. -/
def normalChar (cl : Str → Nat) : PE RegexChar := verify (oneCluster cl) (fun c =>
  match c with
  | .grapheme g => !isReservedChar (g.headD (Char.ofNat 0))
  | _ => false)

/-- dandy/src/parser/regex.rs:83-85 `escaped_char`. -/
def escapedChar (cl : Str → Nat) : PE RegexChar := preceded (oneOf .char ['\\']) (oneCluster cl)

/-- dandy/src/parser/regex.rs:97-99 `empty_str`. -/
def emptyStr : PE RegexChar := value .epsilon (oneOf .char ['ε'])

/-- dandy/src/parser/regex.rs:100-102 `empty_lang`. -/
def emptyLang : PE RegexChar := value .empty (oneOf .char ['∅'])

/-- dandy/src/parser/regex.rs:71-73 `regex_char`. -/
def regexChar (cl : Str → Nat) : PE RegexChar := alt emptyLang (alt emptyStr (alt (escapedChar cl) (normalChar cl)))

/-- dandy/src/parser/regex.rs:52-57 `combinated_char`. -/
def combinatedChar (cl : Str → Nat) : PE RegexTree :=
  map applyKleene (pair (map RegexTree.chr (regexChar cl)) (opt (oneOf .oneOf ['+', '*'])))

/-- dandy/src/parser/regex.rs:45-50 `par_expr`, for a given parser of expressions. -/
def parExpr (expression : PE RegexTree) : PE RegexTree :=
  map applyKleene (pair (delimited (oneOf .char ['(']) expression (oneOf .char [')'])) (opt (oneOf .oneOf ['+', '*'])))

/-- dandy/src/parser/regex.rs:28-33 `sequence`. -/
def sequence (cl : Str → Nat) (expression : PE RegexTree) : PE RegexTree :=
  map (wrapMultiple .seq) (many1 (alt (parExpr expression) (combinatedChar cl)))

/-- dandy/src/parser/regex.rs:21-26 `alternation`. -/
def alternation (cl : Str → Nat) (expression : PE RegexTree) : PE RegexTree :=
  map (wrapMultiple .alt) (separatedList1 (oneOf .char ['|']) (sequence cl expression))

/-- dandy/src/parser/regex.rs:17-19 `expression`; the nesting is bounded by the first argument, as in `RegexParser.expression`. -/
def expression (cl : Str → Nat) : Nat → PE RegexTree
  | 0 => error .fail
  | depth + 1 => alternation cl (expression cl depth)

/-- dandy/src/parser/regex.rs:13-15 `full_regex`. -/
def fullRegex (cl : Str → Nat) : PE RegexTree := fun s => expression cl ((trim s).length + 1) (trim s)

/-- dandy/src/parser/mod.rs:119-123 `regex`. -/
def regex (cl : Str → Nat) : Str → Except NomError RegexTree := allConsuming (fullRegex cl)

end RegexE

/-- The name of the code (`Debug` of nom's `ErrorKind`, used by `Display` of `nom::error::Error`; shown in dandy-cli/src/automata.rs:17,21,25). -/
def ErrorKind.text : ErrorKind → Str
  | tag => c!"Tag" | char => c!"Char" | oneOf => c!"OneOf" | space => c!"Space" | takeTill1 => c!"TakeTill1" | verify => c!"Verify"
  | crLf => c!"CrLf" | eof => c!"Eof" | fail => c!"Fail" | many0 => c!"Many0" | many1 => c!"Many1" | separatedList => c!"SeparatedList"

/-- `Display` of `nom::error::Error` (shown in dandy-cli/src/automata.rs:17,21,25). -/
def NomError.text (e : NomError) : Str := c!"error " ++ e.code.text ++ c!" at: " ++ e.input

/-- Hexadecimal digits of a number, as in `char::escape_unicode` (Rust's `core`; part of the text shown by dandy-cli/src/equivalence.rs:166,170,174). -/
def hexStr (n : Nat) : Str := Nat.toDigits 16 n

/-- `Debug` of a character inside of a string (`char::escape_debug_ext` of Rust's `core`; part of the text shown by
dandy-cli/src/equivalence.rs:166,170,174). `plain`: printable and not extending a grapheme, according to the tables of Rust's `core`. -/
def debugChar (plain : Char → Bool) (c : Char) : Str :=
  if c = '\x00' then ['\\', '0'] else
  if c = '\t' then ['\\', 't'] else
  if c = '\r' then ['\\', 'r'] else
  if c = '\n' then ['\\', 'n'] else
  if c = '\\' then ['\\', '\\'] else
  if c = '"' then ['\\', '"'] else
  if plain c then [c] else ['\\', 'u', '{'] ++ hexStr c.toNat ++ ['}']

/-- `Debug` of a string: in quotes, with the characters escaped (part of the text shown by dandy-cli/src/equivalence.rs:166,170,174). -/
def debugStr (plain : Char → Bool) (s : Str) : Str := ['"'] ++ s.flatMap (debugChar plain) ++ ['"']

/-- `Debug` of `nom::error::Error` (shown in dandy-cli/src/equivalence.rs:166,170,174 and dandy-wasm/src/lib.rs:165,187,209). -/
def NomError.debug (plain : Char → Bool) (e : NomError) : Str :=
  c!"Error { input: " ++ debugStr plain e.input ++ c!", code: " ++ e.code.text ++ c!" }"

end Dandy
