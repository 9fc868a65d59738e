import Mathlib.Computability.Language
import Verif.Model.Types
/-!
# The documented grammar of regular expressions, with the language of each phrase

`cl s` is the length of the first grapheme cluster of `s`. In each relation, the first text is what is left to read before the
phrase, the second what is left after it. The list contains the clusters used as elements in the order in which they are written
(those of `x+` twice, since it means `xx*`; only the first occurrences matter).
-/

namespace Dandy

/-- The eight reserved characters of the documentation (dandy/src/regex/mod.rs:8, dandy/src/parser/mod.rs:50). -/
def IsReserved (c : Char) : Prop :=
  c = '∅' ∨ c = 'ε' ∨ c = '|' ∨ c = '*' ∨ c = '+' ∨ c = '\\' ∨ c = '(' ∨ c = ')'

mutual
/-- A parenthesised expression, the empty string, the empty language, an escaped cluster, or a cluster which does not begin with
a reserved character. -/
inductive AtomL (cl : Str → Nat) : Str → Str → Language Str → List Str → Prop
  | par {s r : Str} {L : Language Str} {gs : List Str} : ExprL cl s (')' :: r) L gs → AtomL cl ('(' :: s) r L gs
  | epsilon {r : Str} : AtomL cl ('ε' :: r) r 1 []
  | empty {r : Str} : AtomL cl ('∅' :: r) r 0 []
  | escaped {s : Str} : s ≠ [] → AtomL cl ('\\' :: s) (s.drop (cl s)) {[s.take (cl s)]} [s.take (cl s)]
  | plain {c : Char} {s : Str} : ¬ IsReserved c →
      AtomL cl (c :: s) ((c :: s).drop (cl (c :: s))) {[(c :: s).take (cl (c :: s))]} [(c :: s).take (cl (c :: s))]
/-- An atom with at most one Kleene operator. -/
inductive ItemL (cl : Str → Nat) : Str → Str → Language Str → List Str → Prop
  | atom {s r : Str} {L : Language Str} {gs : List Str} : AtomL cl s r L gs → ItemL cl s r L gs
  | star {s r : Str} {L : Language Str} {gs : List Str} : AtomL cl s ('*' :: r) L gs → ItemL cl s r (KStar.kstar L) gs
  | plus {s r : Str} {L : Language Str} {gs : List Str} : AtomL cl s ('+' :: r) L gs → ItemL cl s r (L * KStar.kstar L) (gs ++ gs)
/-- One or more items in sequence. -/
inductive SeqL (cl : Str → Nat) : Str → Str → Language Str → List Str → Prop
  | one {s r : Str} {L : Language Str} {gs : List Str} : ItemL cl s r L gs → SeqL cl s r L gs
  | cons {s m r : Str} {L M : Language Str} {gs hs : List Str} : ItemL cl s m L gs → SeqL cl m r M hs → SeqL cl s r (L * M) (gs ++ hs)
/-- One or more sequences separated by bars. -/
inductive ExprL (cl : Str → Nat) : Str → Str → Language Str → List Str → Prop
  | one {s r : Str} {L : Language Str} {gs : List Str} : SeqL cl s r L gs → ExprL cl s r L gs
  | alt {s m r : Str} {L M : Language Str} {gs hs : List Str} :
      SeqL cl s ('|' :: m) L gs → ExprL cl m r M hs → ExprL cl s r (L + M) (gs ++ hs)
end

/-- The code points with the Unicode property White_Space. -/
def WhiteSpace (c : Char) : Prop :=
  c.toNat ∈ [0x09, 0x0A, 0x0B, 0x0C, 0x0D, 0x20, 0x85, 0xA0, 0x1680, 0x2000, 0x2001, 0x2002, 0x2003, 0x2004, 0x2005, 0x2006, 0x2007,
    0x2008, 0x2009, 0x200A, 0x2028, 0x2029, 0x202F, 0x205F, 0x3000]

/-- `core` is `text` without the white space around it. -/
def Trimmed (text core : Str) : Prop :=
  ∃ a b, text = a ++ core ++ b ∧ (∀ c ∈ a, WhiteSpace c) ∧ (∀ c ∈ b, WhiteSpace c) ∧
    (∀ c ∈ core.head?, ¬ WhiteSpace c) ∧ (∀ c ∈ core.getLast?, ¬ WhiteSpace c)

/-- What is assumed about the segmentation: the first cluster of a non-empty text is a non-empty prefix of it. -/
structure Segmentation (cl : Str → Nat) : Prop where
  pos : ∀ s, s ≠ [] → 1 ≤ cl s
  le : ∀ s, cl s ≤ s.length

end Dandy
