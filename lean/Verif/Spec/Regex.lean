import Mathlib.Computability.Language
import Verif.Model.Regex
import Verif.Spec.Automata
/-! # Meaning of regular expressions -/

namespace Dandy

/-- `Matches t w`: the word `w` (a list of graphemes) is in the language of the expression. -/
inductive Matches : RegexTree → Word → Prop
  | grapheme (g : Str) : Matches (.chr (.grapheme g)) [g]
  | epsilon : Matches (.chr .epsilon) []
  | seqNil : Matches (.seq []) []
  | seqCons {t : RegexTree} {ts : List RegexTree} {u v : Word} :
      Matches t u → Matches (.seq ts) v → Matches (.seq (t :: ts)) (u ++ v)
  | alt {t : RegexTree} {ts : List RegexTree} {u : Word} : t ∈ ts → Matches t u → Matches (.alt ts) u
  | repNil {t : RegexTree} : Matches (.rep t) []
  | repCons {t : RegexTree} {u v : Word} : Matches t u → Matches (.rep t) v → Matches (.rep t) (u ++ v)

mutual
/-- The graphemes written in an expression, from left to right. -/
def RegexTree.graphemes : RegexTree → List Str
  | .seq ts => RegexTree.graphemesList ts
  | .alt ts => RegexTree.graphemesList ts
  | .rep t => RegexTree.graphemes t
  | .chr (.grapheme g) => [g]
  | .chr .epsilon => []
  | .chr .empty => []
/-- See `graphemes`. -/
def RegexTree.graphemesList : List RegexTree → List Str
  | [] => []
  | t :: ts => RegexTree.graphemes t ++ RegexTree.graphemesList ts
end

mutual
/-- The language of an expression with the operations on languages of Mathlib. -/
def RegexTree.denote : RegexTree → Language Str
  | .seq ts => RegexTree.denoteSeq ts
  | .alt ts => RegexTree.denoteAlt ts
  | .rep t => KStar.kstar (RegexTree.denote t)
  | .chr (.grapheme g) => {[g]}
  | .chr .epsilon => 1
  | .chr .empty => 0
/-- See `denote`. -/
def RegexTree.denoteSeq : List RegexTree → Language Str
  | [] => 1
  | t :: ts => RegexTree.denote t * RegexTree.denoteSeq ts
/-- See `denote`. -/
def RegexTree.denoteAlt : List RegexTree → Language Str
  | [] => 0
  | t :: ts => RegexTree.denote t + RegexTree.denoteAlt ts
end

end Dandy
