import Verif.Model.Types
/-!
# Assumptions about the segmentation of texts into grapheme clusters

`seg` is `UnicodeSegmentation::graphemes(_, true)`, `cl` the length of the first cluster. Both are properties of the Unicode rules
(UAX #29); no theorem depends on the details of the rules.
-/

namespace Dandy

/-- The clusters of a text make up the text, none is empty, and a cluster is a single cluster also when standing alone. -/
structure Clusters (seg : Str → List Str) : Prop where
  flatten : ∀ t, (seg t).flatten = t
  nonempty : ∀ t, [] ∉ seg t
  single : ∀ t, ∀ g ∈ seg t, seg g = [g]

/-- `cl` gives the length of the first cluster of `seg`. -/
def FirstCluster (cl : Str → Nat) (seg : Str → List Str) : Prop :=
  ∀ t, t ≠ [] → (seg t).head? = some (t.take (cl t))

end Dandy
