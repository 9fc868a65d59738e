import Verif.Spec.Draw
/-! # How many levels a drawing needs (for C107) -/

namespace Dandy
namespace Draw

/-- The arrow passes between state `x` and the next one. -/
def Passes {α : Type} (left right : α → Nat) (x : Nat) (a : α) : Bool := decide (left a ≤ x) && decide (x < right a)

/-- The arrow begins, ends or passes at state `x`, or is a loop there. -/
def Touches {α : Type} (left right : α → Nat) (x : Nat) (a : α) : Bool := decide (left a ≤ x) && decide (x ≤ right a)

/-- The arrows come one after the other from left to right, and no two touch the same state. -/
def Separate {α : Type} (left right : α → Nat) (as : List α) : Prop := as.Pairwise (fun a b => right a < left b)

/-- The arrows come one after the other from left to right; each may begin where the one before ends. -/
def InRow {α : Type} (left right : α → Nat) (as : List α) : Prop := as.Pairwise (fun a b => right a ≤ left b)

/-- A way to draw the arrows on some levels without overlaps. -/
structure Arranged {α : Type} (left right : α → Nat) (as : List α) (placed : List (PlacedArrow α)) (levels : Nat) : Prop where
  each : (placed.map (·.arrow)).Perm as
  below : ∀ p ∈ placed, p.level < levels
  apart : placed.Pairwise (fun p q => p.level = q.level → Before (left p.arrow) (right p.arrow) (left q.arrow) (right q.arrow))

end Draw
end Dandy
