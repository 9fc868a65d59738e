import Verif.Spec.DrawBox
/-! # What the options of a drawing do, and the distance of lines and circles (for C119, C120) -/

namespace Dandy
namespace Draw

/-- Everything at another place. -/
def Op.shifted (v : Pos2) : Op → Op
  | .circle p r w => .circle ⟨p.x + v.x, p.y + v.y⟩ r w
  | .text p s => .text ⟨p.x + v.x, p.y + v.y⟩ s
  | .line a b w => .line ⟨a.x + v.x, a.y + v.y⟩ ⟨b.x + v.x, b.y + v.y⟩ w
  | op => op

/-- Everything `k` times as large and as far from the origin; lines as thick as before. -/
def Op.grown (k : Rat) : Op → Op
  | .circle p r w => .circle ⟨k * p.x, k * p.y⟩ (k * r) w
  | .text p s => .text ⟨k * p.x, k * p.y⟩ s
  | .line a b w => .line ⟨k * a.x, k * a.y⟩ ⟨k * b.x, k * b.y⟩ w
  | op => op

/-- The same in no colour and without width. -/
def Op.bare : Op → Op
  | .circle p r _ => .circle p r 0
  | .line a b _ => .line a b 0
  | .color _ => .color (0, 0, 0)
  | op => op

/-- Lines. -/
def Op.isLine : Op → Bool
  | .line _ _ _ => true
  | _ => false

/-- All lengths (radii, arms, margins, …) and the offset `k` times as large; scale, widths of lines and colours as before. -/
def Options.grown (k : Rat) (o : Options) : Options :=
  { o with
    xOffset := k * o.xOffset
    yOffset := k * o.yOffset
    centerLinePadding := k * o.centerLinePadding
    circleRadius := k * o.circleRadius
    acceptingCircleRadius := k * o.acceptingCircleRadius
    initArrowLength := k * o.initArrowLength
    initArrowArmsLength := k * o.initArrowArmsLength
    transArrowArmsLength := k * o.transArrowArmsLength
    fromLineOffset := k * o.fromLineOffset
    toLineOffset := k * o.toLineOffset
    floorHeight := k * o.floorHeight
    textMargin := k * o.textMargin
    lineCircleMargin := k * o.lineCircleMargin }

/-- Other widths of lines and other colours. -/
def Options.styled (circle accepting init trans : Rat) (text disc line : Color) (o : Options) : Options :=
  { o with
    circleWidth := circle
    acceptingCircleWidth := accepting
    initArrowWidth := init
    transLineWidth := trans
    textColor := text
    circleColor := disc
    lineColor := line }

/-- The point dividing the way from `a` to `b` in the proportion `t` (`a` for 0, `b` for 1). -/
def Pos2.along (a b : Pos2) (t : Rat) : Pos2 := ⟨a.x + t * (b.x - a.x), a.y + t * (b.y - a.y)⟩

/-- The point `p` is outside of the circle around `c` with radius `r` and not on it (Pythagoras). -/
def Outside (c : Pos2) (r : Rat) (p : Pos2) : Prop := r ^ 2 < (p.x - c.x) ^ 2 + (p.y - c.y) ^ 2

/-- No line touches a circle. -/
def Clear (ops : List Op) : Prop :=
  ∀ a b, HasLine ops a b → ∀ c r, (c, r) ∈ circles ops → ∀ t, 0 ≤ t → t ≤ 1 → Outside c r (Pos2.along a b t)

/-- The points are at least `d` apart horizontally or at least `d` apart vertically. -/
def Pos2.Apart (d : Rat) (p q : Pos2) : Prop := d ≤ p.x - q.x ∨ d ≤ q.x - p.x ∨ d ≤ p.y - q.y ∨ d ≤ q.y - p.y

/-- No line comes closer than `d` to the centre of a text. -/
def Unstruck (d : Rat) (ops : List Op) : Prop :=
  ∀ a b, HasLine ops a b → ∀ p s, (p, s) ∈ texts ops → ∀ t, 0 ≤ t → t ≤ 1 → Pos2.Apart d (Pos2.along a b t) p

/-- The centres of any two texts are at least `d` apart. -/
def Spread (d : Rat) (ops : List Op) : Prop := (texts ops).Pairwise (fun x y => Pos2.Apart d x.1 y.1)

/-- Sizes that leave a distance of `d` between texts and lines: the vertical parts of arrows are neither at the middle of states nor midway
between them, and labels are between their arrow and the next height for arrows, with the tips of arrows taken into account. -/
structure Options.Legible (d : Rat) (o : Options) : Prop where
  roomy : o.Roomy
  off : d ≤ (o.fromLineOffset + o.toLineOffset) / 2 ∧ (o.fromLineOffset + o.toLineOffset) / 2 + d ≤ o.step / 2
  text : o.transArrowArmsLength + d ≤ o.textMargin ∧ o.textMargin + o.transArrowArmsLength + d ≤ o.floorHeight
  radius : d ≤ o.circleRadius

end Draw
end Dandy
