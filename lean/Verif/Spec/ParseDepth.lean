import Verif.Model.Chars
import Verif.Model.Regex
import Mathlib.Data.List.Infix
/-! # How deep the parentheses of a regular expression are nested -/

namespace Dandy

/-- The characters of a text that are not escaped: a backslash and the character after it are left out. -/
def marks : Str → Str
  | [] => []
  | ['\\'] => []
  | '\\' :: _ :: r => marks r
  | c :: r => c :: marks r

/-- How many parentheses are open at once: the greatest number, over all beginnings of the text, of opening parentheses more than closing ones. -/
def nesting (text : Str) : Nat := ((marks text).inits.map (fun b => b.count '(' - b.count ')')).foldr max 0

/-- No parenthesis and no backslash is hidden inside a grapheme cluster of the text: from no place of it does the first cluster have one after its
first character. (Only after the few characters with the Unicode property Prepend does a cluster contain one.) -/
def NoHidden (cl : Str → Nat) (text : Str) : Prop :=
  ∀ s, s <:+ text → ∀ c ∈ (s.take (cl s)).tail, c ≠ '(' ∧ c ≠ ')' ∧ c ≠ '\\'

namespace RegexTree
/-- One expression is directly a part of another one. -/
inductive PartOf : RegexTree → RegexTree → Prop
  | seq {ts : List RegexTree} {t : RegexTree} : t ∈ ts → PartOf t (.seq ts)
  | alt {ts : List RegexTree} {t : RegexTree} : t ∈ ts → PartOf t (.alt ts)
  | rep {t : RegexTree} : PartOf t (.rep t)
end RegexTree

end Dandy
