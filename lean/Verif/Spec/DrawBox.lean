import Verif.Spec.Backends
/-! # How large drawings are (for C104) -/

namespace Dandy
namespace Draw

/-- A point of the rectangle with the corners `a` (left, top) and `b` (right, bottom). -/
def Pos2.In (a b p : Pos2) : Prop := a.x ≤ p.x ∧ p.x ≤ b.x ∧ a.y ≤ p.y ∧ p.y ≤ b.y

/-- A circle or a line is in the rectangle as a whole; of a text, the centre is. The width of lines is not taken into account. -/
def Item.In (a b : Pos2) : Item → Prop
  | .circle c r _ _ => Pos2.In a b ⟨c.x - r, c.y - r⟩ ∧ Pos2.In a b ⟨c.x + r, c.y + r⟩
  | .line p q _ _ => Pos2.In a b p ∧ Pos2.In a b q
  | .text c _ _ => Pos2.In a b c

/-- How many of the arrows (pairs of states) pass between the states `k` and `k + 1`. -/
def over (ps : List (Nat × Nat)) (k : Nat) : Nat := ps.countP (fun p => min p.1 p.2 ≤ k ∧ k < max p.1 p.2)

/-- How many of the arrows have their right end below the arrow `q`, the arrow itself included: strictly to the right of its left end and not
beyond its right end; or they are loops at its left end. -/
def under (ps : List (Nat × Nat)) (q : Nat × Nat) : Nat :=
  ps.countP (fun p => max p.1 p.2 ≤ max q.1 q.2 ∧ (min q.1 q.2 < max p.1 p.2 ∨ p.1 = p.2 ∧ p.1 = min q.1 q.2))

/-- The width of a drawing of `n` states. -/
def Options.width (o : Options) (n : Nat) : Rat := o.initArrowLength + o.step * (n : Rat)

/-- The height of a drawing with `levels` heights for arrows. -/
def Options.height (o : Options) (levels : Nat) : Rat := o.stateY levels + o.circleRadius + o.centerLinePadding + o.initArrowLength

/-- Sizes for which nothing sticks out: the inner circle and the tips of arrows are small, offset is arbitrary. -/
structure Options.Roomy (o : Options) : Prop where
  scaleX : 0 < o.xScale
  scaleY : o.xScale ≤ o.yScale
  radius : 0 < o.circleRadius
  inner : 0 ≤ o.acceptingCircleRadius ∧ o.acceptingCircleRadius ≤ o.circleRadius
  padding : 0 ≤ o.centerLinePadding
  margin : 0 ≤ o.lineCircleMargin
  floor : 0 < o.floorHeight
  init : 0 ≤ o.initArrowArmsLength ∧ o.initArrowArmsLength ≤ o.initArrowLength ∧ o.initArrowArmsLength ≤ o.circleRadius
  arms : 0 ≤ o.transArrowArmsLength ∧ o.transArrowArmsLength ≤ o.floorHeight
  leaving : 0 ≤ o.fromLineOffset ∧ o.fromLineOffset + o.transArrowArmsLength ≤ o.circleRadius
  entering : 0 ≤ o.toLineOffset ∧ o.toLineOffset + o.transArrowArmsLength ≤ o.circleRadius
  text : 0 ≤ o.textMargin ∧ o.textMargin ≤ o.floorHeight

end Draw
end Dandy
