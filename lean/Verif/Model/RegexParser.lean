import Verif.Model.Nom
import Verif.Model.Regex
/-!
# Model of dandy/src/parser/regex.rs

`cl s` is the number of characters of the first extended grapheme cluster of the non-empty string `s`
(`s.graphemes(true).next()` of the crate unicode-segmentation, not modelled; every theorem is about all functions `cl`).
-/

namespace Dandy
namespace RegexParser
open P

/-- dandy/src/parser/regex.rs:35-43 `wrap_multiple`; `items.remove(0)` on an empty list would panic, here `default` (both
callers give at least one item). -/
def wrapMultiple (f : List RegexTree → RegexTree) (items : List RegexTree) : RegexTree :=
  if 1 < items.length then f items else items.headD (.seq [])

/-- dandy/src/parser/regex.rs:59-69 `apply_kleene`. -/
def applyKleene : RegexTree × Option Char → RegexTree
  | (t, some c) => if c == '+' then .seq [t, .rep t] else .rep t
  | (t, none) => t

/-- dandy/src/parser/regex.rs:88-95 `one_cluster`. -/
def oneCluster (cl : Str → Nat) : P RegexChar := fun s =>
  match s with
  | [] => none
  | _ => some (.grapheme (s.take (cl s)), s.drop (cl s))

/-- dandy/src/parser/regex.rs:104-106 `is_reserved_char`. -/
def isReservedChar (c : Char) : Bool := RegexTree.reserved.contains c

/-- dandy/src/parser/regex.rs:75-81 `normal_char`; `unwrap_or_default` gives the character 0. -/
def normalChar (cl : Str → Nat) : P RegexChar := verify (oneCluster cl) (fun c =>
  match c with
  | .grapheme g => !isReservedChar (g.headD (Char.ofNat 0))
  | _ => false)

/-- dandy/src/parser/regex.rs:83-85 `escaped_char`. -/
def escapedChar (cl : Str → Nat) : P RegexChar := preceded (oneOf ['\\']) (oneCluster cl)

/-- dandy/src/parser/regex.rs:97-99 `empty_str`. -/
def emptyStr : P RegexChar := value .epsilon (oneOf ['ε'])

/-- dandy/src/parser/regex.rs:100-102 `empty_lang`. -/
def emptyLang : P RegexChar := value .empty (oneOf ['∅'])

/-- dandy/src/parser/regex.rs:71-73 `regex_char`. -/
def regexChar (cl : Str → Nat) : P RegexChar := alt emptyLang (alt emptyStr (alt (escapedChar cl) (normalChar cl)))

/-- dandy/src/parser/regex.rs:52-57 `combinated_char`. -/
def combinatedChar (cl : Str → Nat) : P RegexTree :=
  map applyKleene (pair (map RegexTree.chr (regexChar cl)) (opt (oneOf ['+', '*'])))

/-- dandy/src/parser/regex.rs:45-50 `par_expr`, for a given parser of expressions. -/
def parExpr (expression : P RegexTree) : P RegexTree :=
  map applyKleene (pair (delimited (oneOf ['(']) expression (oneOf [')'])) (opt (oneOf ['+', '*'])))

/-- dandy/src/parser/regex.rs:28-33 `sequence`. -/
def sequence (cl : Str → Nat) (expression : P RegexTree) : P RegexTree :=
  map (wrapMultiple .seq) (many1 (alt (parExpr expression) (combinatedChar cl)))

/-- dandy/src/parser/regex.rs:21-26 `alternation`. -/
def alternation (cl : Str → Nat) (expression : P RegexTree) : P RegexTree :=
  map (wrapMultiple .alt) (separatedList1 (oneOf ['|']) (sequence cl expression))

/-- dandy/src/parser/regex.rs:17-19 `expression`. The recursion of the code is unbounded; here the nesting of parentheses is
bounded by the first argument (the length of the input always suffices). -/
def expression (cl : Str → Nat) : Nat → P RegexTree
  | 0 => fun _ => none
  | depth + 1 => alternation cl (expression cl depth)

/-- dandy/src/parser/regex.rs:13-15 `full_regex`. -/
def fullRegex (cl : Str → Nat) : P RegexTree := fun s => expression cl ((trim s).length + 1) (trim s)

/-- dandy/src/parser/mod.rs:119-123 `regex`. -/
def regex (cl : Str → Nat) : Str → Option RegexTree := allConsuming (fullRegex cl)

end RegexParser
end Dandy
