import Verif.Spec.RegexGrammar
import Verif.Model.Chars
/-! # Sizes: texts of regular expressions used in C83 -/

namespace Dandy

/-- A Latin letter followed by an ASCII character, or by nothing, is a grapheme cluster of its own (Unicode Standard Annex 29). -/
def LettersApart (cl : Str → Nat) : Prop :=
  ∀ (c : Char) (s : Str), c.isAlpha = true → (∀ d ∈ s.head?, d.toNat < 128) → cl (c :: s) = 1

/-- `a`, `(a)+`, `((a)+)+`, … -/
def nestedPlus : Nat → Str
  | 0 => c!"a"
  | k + 1 => c!"(" ++ nestedPlus k ++ c!")+"

/-- `(a|b)*a`, `(a|b)*a(a|b)`, `(a|b)*a(a|b)(a|b)`, … -/
def lookBack (k : Nat) : Str := c!"(a|b)*a" ++ (List.replicate k c!"(a|b)").flatten

/-- Words over `a` and `b` with `a` at the place before the last `k` elements. -/
def LooksBack (k : Nat) (w : List Str) : Prop :=
  (∀ e ∈ w, e = c!"a" ∨ e = c!"b") ∧ ∃ x y, w = x ++ c!"a" :: y ∧ y.length = k

end Dandy
