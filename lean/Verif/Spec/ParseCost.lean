import Verif.Model.Chars
/-! # What the work of the parser of regular expressions depends on -/

namespace Dandy

/-- How often `)+` occurs in a text. -/
def groupPlus : Str → Nat
  | [] => 0
  | ')' :: '+' :: r => groupPlus r + 1
  | _ :: r => groupPlus r

end Dandy
