import Verif.Model.Basic
/-! # Calls of a function with a state, one after the other -/

namespace Dandy

/-- The state after calling `f` on all elements in order, and the answers. -/
def callAll {τ α β : Type} (f : τ → α → τ × β) : τ → List α → τ × List β
  | t, [] => (t, [])
  | t, a :: l => ((callAll f (f t a).1 l).1, (f t a).2 :: (callAll f (f t a).1 l).2)

end Dandy
