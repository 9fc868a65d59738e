import Verif.Model.Draw
import Mathlib.Data.Int.Log
import Mathlib.Data.Rat.Floor
import Mathlib.Algebra.Order.Round
/-!
# Numbers of `f32`

Specification of the rounding done by the arithmetic of `f32` (IEEE 754 binary32), independent of the drawing code.
-/

namespace Dandy
namespace Draw

/-- A finite number of `f32`: 24 bits times a power of two. -/
def IsF32 (q : Rat) : Prop := ∃ m e : Int, m.natAbs ≤ 2 ^ 24 ∧ -149 ≤ e ∧ e ≤ 103 ∧ q = m * (2 : Rat) ^ e

/-- 24 bits times any power of two. -/
def Has24 (q : Rat) : Prop := ∃ m e : Int, m.natAbs ≤ 2 ^ 24 ∧ q = m * (2 : Rat) ^ e

/-- What IEEE 754 demands of every rounding mode: a result that is a number of `f32` is not changed. -/
def KeepsF32 (r : Rat → Rat) : Prop := ∀ q, IsF32 q → r q = q

/-- The exponent of the last bit of the numbers of `f32` near `q`. -/
def lastBit (q : Rat) : Int := max (-149) (Int.log 2 |q| - 23)

/-- The nearest integer, and of two equally near ones the even one. -/
def nearestEven (q : Rat) : Int :=
  if Int.fract q < 1 / 2 then ⌊q⌋
  else if 1 / 2 < Int.fract q then ⌊q⌋ + 1
  else if ⌊q⌋ % 2 = 0 then ⌊q⌋ else ⌊q⌋ + 1

/-- Rounding to the nearest number of `f32`, ties to even (numbers that are too large for `f32` aside). -/
def round32 (q : Rat) : Rat := nearestEven (q / (2 : Rat) ^ lastBit q) * (2 : Rat) ^ lastBit q

/-- Options whose lengths are integers of at most `L` and whose scales are integers of at most `S`. -/
structure Options.Whole (o : Options) (L S : Nat) : Prop where
  scales : ∀ q ∈ [o.xScale, o.yScale], ∃ k : Int, q = k ∧ k.natAbs ≤ S
  lengths : ∀ q ∈ [o.xOffset, o.yOffset, o.centerLinePadding, o.circleRadius, o.acceptingCircleRadius, o.initArrowLength, o.initArrowArmsLength,
    o.transArrowArmsLength, o.fromLineOffset, o.toLineOffset, o.floorHeight, o.textMargin, o.lineCircleMargin], ∃ k : Int, q = k ∧ k.natAbs ≤ L

/-- A call without its coordinates. -/
inductive Call where
  | start
  | finish
  | circle
  | text (s : Str)
  | line
  | color (rgb : Draw.Color)
deriving DecidableEq

/-- Which call it is, and what it writes. -/
def Op.call : Op → Call
  | .start => .start
  | .finish => .finish
  | .circle _ _ _ => .circle
  | .text _ s => .text s
  | .line _ _ _ => .line
  | .color c => .color c

end Draw
end Dandy
