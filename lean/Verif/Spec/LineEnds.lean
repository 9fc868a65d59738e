import Verif.Model.Basic
/-! # Line ends in texts -/

namespace Dandy

/-- Every carriage return is followed by a line feed. -/
def PairedCr (t : Str) : Prop := ∀ a b, t = a ++ '\r' :: b → ∃ b', b = '\n' :: b'

/-- `t` is `u` with some line ends written as `\r\n`. -/
inductive Crlf : Str → Str → Prop
  | nil : Crlf [] []
  | same {c : Char} {t u : Str} : c ≠ '\r' → Crlf t u → Crlf (c :: t) (c :: u)
  | crlf {t u : Str} : Crlf t u → Crlf ('\r' :: '\n' :: t) ('\n' :: u)

end Dandy
