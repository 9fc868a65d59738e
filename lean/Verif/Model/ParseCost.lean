import Verif.Model.FaParser
import Verif.Model.RegexParser
/-!
# The work done by the parsers (dandy/src/parser)

How much the parsers of `Verif.Model.FaParser` and `Verif.Model.RegexParser` do, counted in elementary steps: one for every call of a parser or
combinator, one for every round of a loop, and one for every character that `space0`, `space1`, `take_till1`, `not_line_ending` and `trim` look
at. Finding the first grapheme cluster (one call of the crate unicode-segmentation) counts as one step, as do the comparisons with the fixed
lists of reserved words and characters (simplification). A part that is not reached is not counted; text that is read again after a failed
alternative is counted again.
-/

namespace Dandy

/-- A parser (dandy/src/parser/fa.rs:8, dandy/src/parser/regex.rs:8) together with the number of steps it takes on an input, whether it succeeds or
fails. -/
structure PC (α : Type) where
  run : P α
  cost : Str → Nat

namespace PC
variable {α β γ : Type}

/-- The cost of what is done after a successful parser (used for all combinators of dandy/src/parser/fa.rs:2-7). -/
def after (x : Option (α × Str)) (f : α → Str → Nat) : Nat :=
  match x with
  | none => 0
  | some (a, r) => f a r

/-- `nom::combinator::map` (dandy/src/parser/regex.rs:14). -/
def map (f : α → β) (p : PC α) : PC β := ⟨P.map f p.run, fun s => 1 + p.cost s⟩

/-- `Parser::and`, `pair`, `tuple` (dandy/src/parser/fa.rs:14,45): the second parser runs on the rest left by the first. -/
def pair (p : PC α) (q : PC β) : PC (α × β) := ⟨P.pair p.run q.run, fun s => 1 + p.cost s + after (p.run s) (fun _ r => q.cost r)⟩

/-- `nom::sequence::preceded` (dandy/src/parser/regex.rs:84). -/
def preceded (p : PC α) (q : PC β) : PC β := map (·.2) (pair p q)

/-- `nom::sequence::terminated` (dandy/src/parser/fa.rs:15). -/
def terminated (p : PC α) (q : PC β) : PC α := map (·.1) (pair p q)

/-- `nom::sequence::delimited` (dandy/src/parser/regex.rs:47). -/
def delimited (p : PC α) (q : PC β) (r : PC γ) : PC β := preceded p (terminated q r)

/-- `nom::branch::alt` (dandy/src/parser/regex.rs:30): the second alternative only if the first fails. -/
def alt (p q : PC α) : PC α := ⟨P.alt p.run q.run, fun s => 1 + p.cost s + if (p.run s).isNone then q.cost s else 0⟩

/-- `nom::combinator::opt` (dandy/src/parser/regex.rs:47). -/
def opt (p : PC α) : PC (Option α) := ⟨P.opt p.run, fun s => 1 + p.cost s⟩

/-- `nom::combinator::verify` (dandy/src/parser/regex.rs:76). -/
def verify (p : PC α) (f : α → Bool) : PC α := ⟨P.verify p.run f, fun s => 1 + p.cost s⟩

/-- `nom::combinator::value` (dandy/src/parser/regex.rs:98). -/
def value (b : β) (p : PC α) : PC β := map (fun _ => b) p

/-- `nom::combinator::recognize` (dandy/src/parser/fa.rs:153). -/
def recognize (p : PC α) : PC Str := ⟨P.recognize p.run, fun s => 1 + p.cost s⟩

/-- `char` and `one_of` (dandy/src/parser/regex.rs:23,47). -/
def oneOf (cs : List Char) : PC Char := ⟨P.oneOf cs, fun _ => 1⟩

/-- `nom::bytes::complete::tag` (dandy/src/parser/fa.rs:113), for the short fixed texts used. -/
def tag (t : Str) : PC Str := ⟨P.tag t, fun _ => 1⟩

/-- The characters looked at by `take_till1` and the like (dandy/src/parser/fa.rs:118): those taken, and the one after them. -/
def scan (f : Char → Bool) (s : Str) : Nat := 2 + (s.takeWhile (fun c => !f c)).length

/-- `nom::bytes::complete::take_till1` (dandy/src/parser/fa.rs:118). -/
def takeTill1 (f : Char → Bool) : PC Str := ⟨P.takeTill1 f, scan f⟩

/-- `nom::character::complete::space0` (dandy/src/parser/fa.rs:29). -/
def space0 : PC Str := ⟨P.space0, scan (fun c => !P.isBlank c)⟩

/-- `nom::character::complete::space1` (dandy/src/parser/fa.rs:31). -/
def space1 : PC Str := ⟨P.space1, scan (fun c => !P.isBlank c)⟩

/-- `nom::character::complete::line_ending` (dandy/src/parser/fa.rs:15). -/
def lineEnding : PC Str := ⟨P.lineEnding, fun _ => 1⟩

/-- `nom::character::complete::not_line_ending` (dandy/src/parser/fa.rs:164); two more steps for the end of the line. -/
def notLineEnding : PC Str := ⟨P.notLineEnding, fun s => 2 + scan (fun c => c == '\n' || c == '\r') s⟩

/-- `nom::combinator::eof` (dandy/src/parser/fa.rs:153). -/
def eof : PC Str := ⟨P.eof, fun _ => 1⟩

/-- The rounds of `P.many0Loop` (dandy/src/parser/fa.rs:13,18). -/
def many0Cost (p : PC α) : Nat → Str → Nat
  | 0, _ => 0
  | fuel + 1, s => 1 + p.cost s + after (p.run s) (fun _ r => if r.length == s.length then 0 else many0Cost p fuel r)

/-- `nom::multi::many0` (dandy/src/parser/fa.rs:13). -/
def many0 (p : PC α) : PC (List α) := ⟨P.many0 p.run, fun s => 1 + many0Cost p (s.length + 1) s⟩

/-- `nom::multi::many1` (dandy/src/parser/regex.rs:30). -/
def many1 (p : PC α) : PC (List α) := map (fun x => x.1 :: x.2) (pair p (many0 p))

/-- The rounds of `P.sepLoop` (dandy/src/parser/fa.rs:18,126). -/
def sepCost (sep : PC β) (p : PC α) : Nat → Str → Nat
  | 0, _ => 0
  | fuel + 1, s => 1 + sep.cost s + after (sep.run s) (fun _ r =>
      if r.length == s.length then 0 else p.cost r + after (p.run r) (fun _ r' => sepCost sep p fuel r'))

/-- `nom::multi::separated_list1` (dandy/src/parser/regex.rs:23). -/
def separatedList1 (sep : PC β) (p : PC α) : PC (List α) :=
  ⟨P.separatedList1 sep.run p.run, fun s => 1 + p.cost s + after (p.run s) (fun _ r => sepCost sep p (r.length + 1) r)⟩

/-- `nom::multi::separated_list0` (dandy/src/parser/fa.rs:126). -/
def separatedList0 (sep : PC β) (p : PC α) : PC (List α) :=
  ⟨P.separatedList0 sep.run p.run, fun s => 1 + p.cost s + after (p.run s) (fun _ r => sepCost sep p (r.length + 1) r)⟩

end PC

namespace FaC
open PC
open Fa (reserved endsName)

/-- dandy/src/parser/fa.rs:112-114 `eps`. -/
def eps : PC Unit := map (fun _ => ()) (alt (tag ['ε']) (tag ['e', 'p', 's']))

/-- dandy/src/parser/fa.rs:116-121 `alphabet_elem`. -/
def alphabetElem : PC Str := verify (takeTill1 endsName) (fun elem => !reserved.contains elem)

/-- dandy/src/parser/fa.rs:131-136 `state_name`. -/
def stateName : PC Str := verify (takeTill1 endsName) (fun elem => !reserved.contains elem)

/-- dandy/src/parser/fa.rs:123-129 `state_set`. -/
def stateSet : PC (List Str) :=
  delimited (tag ['{']) (delimited space0 (separatedList0 space1 stateName) space0) (tag ['}'])

/-- dandy/src/parser/fa.rs:138-140 `accepting`. -/
def accepting : PC Unit := value () (tag ['*'])

/-- dandy/src/parser/fa.rs:142-144 `arrow`. -/
def arrow : PC Unit := map (fun _ => ()) (alt (tag ['-', '>']) (tag ['→']))

/-- dandy/src/parser/fa.rs:163-165 `comment`. -/
def comment : PC Unit := value () (pair (tag ['#']) notLineEnding)

/-- dandy/src/parser/fa.rs:159-161 `space_comment`. -/
def spaceComment : PC Unit := value () (pair space0 (opt comment))

/-- dandy/src/parser/fa.rs:146-157 `space_comment_line`. -/
def spaceCommentLine : PC Unit :=
  value () (verify (recognize (terminated spaceComment (alt lineEnding eof))) (fun consumed => !consumed.isEmpty))

/-- dandy/src/parser/fa.rs:27-39 `nfa_head` and 81-87 `dfa_head`. -/
def faHead {α : Type} (item : PC α) : PC (List α) := delimited space0 (separatedList1 space1 item) spaceComment

/-- dandy/src/parser/fa.rs:33-34, the entries of `nfa_head`. -/
def nfaHeadItem : PC NfaAlphabetEntry := alt (map NfaAlphabetEntry.element alphabetElem) (value NfaAlphabetEntry.eps eps)

/-- dandy/src/parser/fa.rs:42-54 (`nfa_line`) and 90-102 (`dfa_line`). -/
def faLine {τ : Type} (entry : PC τ) : PC ((Option Unit × Option Unit) × (Str × List τ)) :=
  delimited space0
    (pair (pair (opt (terminated arrow space1)) (opt (terminated accepting space1)))
      (pair (terminated stateName space1) (separatedList1 space1 entry)))
    spaceComment

/-- dandy/src/parser/fa.rs:89-110 `dfa_line`. -/
def dfaLine : PC ParsedDfaState :=
  map (fun x => ⟨x.2.1, x.1.1.isSome, x.1.2.isSome, x.2.2⟩) (faLine stateName)

/-- dandy/src/parser/fa.rs:41-62 `nfa_line`. -/
def nfaLine : PC ParsedNfaState :=
  map (fun x => ⟨x.2.1, x.1.1.isSome, x.1.2.isSome, x.2.2⟩) (faLine stateSet)

/-- dandy/src/parser/fa.rs:10-25 `full_nfa` and 64-79 `full_dfa`, without the final `map`. -/
def fullFa {α σ : Type} (head : PC (List α)) (line : PC σ) : PC (List α × List σ) :=
  delimited (many0 spaceCommentLine)
    (pair (terminated head lineEnding)
      (preceded (many0 spaceCommentLine) (separatedList1 (many1 spaceCommentLine) line)))
    (many0 spaceCommentLine)

/-- dandy/src/parser/fa.rs:64-79 `full_dfa`. -/
def fullDfa : PC ParsedDfa := map (fun x => ⟨x.1, x.2⟩) (fullFa (faHead alphabetElem) dfaLine)

/-- dandy/src/parser/fa.rs:10-25 `full_nfa`. -/
def fullNfa : PC ParsedNfa := map (fun x => ⟨x.1, x.2⟩) (fullFa (faHead nfaHeadItem) nfaLine)

/-- Steps of `parser::dfa` (dandy/src/parser/mod.rs:102-106); two for `all_consuming` and `finish`. -/
def dfaCost (s : Str) : Nat := 2 + fullDfa.cost s

/-- Steps of `parser::nfa` (dandy/src/parser/mod.rs:111-115). -/
def nfaCost (s : Str) : Nat := 2 + fullNfa.cost s

end FaC

namespace RegexTree
mutual
/-- Steps of the derived `RegexTree::clone` (dandy/src/regex/mod.rs:64-70): one for every node. -/
def nodes : RegexTree → Nat
  | seq ts => 1 + nodesList ts
  | alt ts => 1 + nodesList ts
  | rep t => 1 + t.nodes
  | chr _ => 1
/-- Steps of `clone` for the vectors inside (dandy/src/regex/mod.rs:66-67). -/
def nodesList : List RegexTree → Nat
  | [] => 0
  | t :: ts => t.nodes + nodesList ts
end
end RegexTree

namespace RegexC
open PC
open RegexParser (wrapMultiple isReservedChar)

/-- dandy/src/parser/regex.rs:88-95 `one_cluster`. -/
def oneCluster (cl : Str → Nat) : PC RegexChar := ⟨RegexParser.oneCluster cl, fun _ => 1⟩

/-- dandy/src/parser/regex.rs:75-81 `normal_char`. -/
def normalChar (cl : Str → Nat) : PC RegexChar := verify (oneCluster cl) (fun c =>
  match c with
  | .grapheme g => !isReservedChar (g.headD (Char.ofNat 0))
  | _ => false)

/-- dandy/src/parser/regex.rs:83-85 `escaped_char`. -/
def escapedChar (cl : Str → Nat) : PC RegexChar := preceded (oneOf ['\\']) (oneCluster cl)

/-- dandy/src/parser/regex.rs:97-99 `empty_str`. -/
def emptyStr : PC RegexChar := value .epsilon (oneOf ['ε'])

/-- dandy/src/parser/regex.rs:100-102 `empty_lang`. -/
def emptyLang : PC RegexChar := value .empty (oneOf ['∅'])

/-- dandy/src/parser/regex.rs:71-73 `regex_char`. -/
def regexChar (cl : Str → Nat) : PC RegexChar := alt emptyLang (alt emptyStr (alt (escapedChar cl) (normalChar cl)))

/-- `map(.., apply_kleene)` (dandy/src/parser/regex.rs:45-69): `copy t` is the cost of `to_combine.clone()` in the case of a `+`. -/
def kleene (copy : RegexTree → Nat) (p : PC (RegexTree × Option Char)) : PC RegexTree :=
  ⟨P.map RegexParser.applyKleene p.run, fun s => 1 + p.cost s + after (p.run s) (fun a _ => if a.2 = some '+' then copy a.1 else 0)⟩

/-- dandy/src/parser/regex.rs:52-57 `combinated_char`. -/
def combinatedChar (copy : RegexTree → Nat) (cl : Str → Nat) : PC RegexTree :=
  kleene copy (pair (map RegexTree.chr (regexChar cl)) (opt (oneOf ['+', '*'])))

/-- dandy/src/parser/regex.rs:45-50 `par_expr`, for a given parser of expressions. -/
def parExpr (copy : RegexTree → Nat) (expression : PC RegexTree) : PC RegexTree :=
  kleene copy (pair (delimited (oneOf ['(']) expression (oneOf [')'])) (opt (oneOf ['+', '*'])))

/-- dandy/src/parser/regex.rs:28-33 `sequence`. -/
def sequence (copy : RegexTree → Nat) (cl : Str → Nat) (expression : PC RegexTree) : PC RegexTree :=
  map (wrapMultiple .seq) (many1 (alt (parExpr copy expression) (combinatedChar copy cl)))

/-- dandy/src/parser/regex.rs:21-26 `alternation`. -/
def alternation (copy : RegexTree → Nat) (cl : Str → Nat) (expression : PC RegexTree) : PC RegexTree :=
  map (wrapMultiple .alt) (separatedList1 (oneOf ['|']) (sequence copy cl expression))

/-- dandy/src/parser/regex.rs:17-19 `expression`; the nesting is bounded by the first argument, as in `RegexParser.expression`. -/
def expression (copy : RegexTree → Nat) (cl : Str → Nat) : Nat → PC RegexTree
  | 0 => ⟨fun _ => none, fun _ => 0⟩
  | depth + 1 => alternation copy cl (expression copy cl depth)

/-- Steps of `parser::regex` (dandy/src/parser/mod.rs:119-123) with `full_regex` (dandy/src/parser/regex.rs:13-15): `trim` looks at every
character at most twice; two steps for `all_consuming` and `finish`, two for `map` and `trim` themselves. -/
def regexCost (copy : RegexTree → Nat) (cl : Str → Nat) (s : Str) : Nat :=
  4 + 2 * s.length + (expression copy cl ((trim s).length + 1)).cost (trim s)

end RegexC
end Dandy
