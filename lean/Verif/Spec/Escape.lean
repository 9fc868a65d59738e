import Verif.Model.Types
/-!
# Texts written as expressions (for C124)
-/

namespace Dandy

/-- A word with a backslash before every cluster, in parentheses; `ε` for the empty word. -/
def escape : List Str → Str
  | [] => ['ε']
  | g :: gs => '(' :: (g :: gs).flatMap ('\\' :: ·) ++ [')']

/-- The words of a list with bars between them; `∅` for the empty list. -/
def dictionary : List (List Str) → Str
  | [] => ['∅']
  | [w] => escape w
  | w :: v :: ws => escape w ++ '|' :: dictionary (v :: ws)

end Dandy
