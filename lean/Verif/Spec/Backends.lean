import Verif.Model.Backends
import Verif.Spec.Draw
/-! # What is visible after a drawing -/

namespace Dandy
namespace Draw

/-- A visible thing. Texts have their centre at the position. -/
inductive Item where
  | circle (center : Pos2) (radius width : Rat) (color : Color)
  | line (a b : Pos2) (width : Rat) (color : Color)
  | text (center : Pos2) (s : Str) (color : Color)
deriving DecidableEq

/-- The same in another colour. -/
def Item.recolor (color : Color) : Item → Item
  | .circle p r w _ => .circle p r w color
  | .line a b w _ => .line a b w color
  | .text p s _ => .text p s color

/-- Lines and circles. -/
def Item.isOutline : Item → Bool
  | .text _ _ _ => false
  | _ => true

/-- What the calls ask for: each thing in the colour set last before it (`color` at the beginning). -/
def items (color : Color) : List Op → List Item
  | [] => []
  | .circle p r w :: ops => .circle p r w color :: items color ops
  | .line a b w :: ops => .line a b w color :: items color ops
  | .text p s :: ops => .text p s color :: items color ops
  | .color c :: ops => items c ops
  | .start :: ops => items color ops
  | .finish :: ops => items color ops

/-- Names and labels are in the text colour, circles in the circle colour, lines in the line colour. -/
def Item.Coloured (o : Options) : Item → Prop
  | .circle _ _ _ c => c = o.circleColor
  | .line _ _ _ c => c = o.lineColor
  | .text _ _ c => c = o.textColor

/-- What can be seen of something painted on a canvas. Closing the path of a line or a circle adds nothing to see. A text which is not
aligned to the centre is not an item. -/
inductive Canvas.Visible : Canvas.Paint → Item → Prop
  | line {a b : Pos2} {w : Rat} {c : Color} : Canvas.Visible (.stroke [.moveTo a, .lineTo b] w c) (.line a b w c)
  | closedLine {a b : Pos2} {w : Rat} {c : Color} : Canvas.Visible (.stroke [.moveTo a, .lineTo b, .close] w c) (.line a b w c)
  | circle {p : Pos2} {r w : Rat} {c : Color} : Canvas.Visible (.stroke [.arc p r] w c) (.circle p r w c)
  | closedCircle {p : Pos2} {r w : Rat} {c : Color} : Canvas.Visible (.stroke [.arc p r, .close] w c) (.circle p r w c)
  | text {p : Pos2} {s : Str} {c : Color} : Canvas.Visible (.text p s c c!"center" c!"middle") (.text p s c)

/-- What can be seen of a shape of egui. -/
inductive Egui.Visible : Egui.Shape → Item → Prop
  | line {a b : Pos2} {w : Rat} {c : Color} : Egui.Visible (.lineSegment a b w c) (.line a b w c)
  | circle {p : Pos2} {r w : Rat} {c : Color} : Egui.Visible (.circleStroke p r w c) (.circle p r w c)
  | text {p : Pos2} {s : Str} {c : Color} : Egui.Visible (.text p true s c) (.text p s c)

/-- Line widths and radii that a canvas can draw. -/
structure Options.Drawable (o : Options) : Prop where
  circleWidth : 0 < o.circleWidth
  acceptingCircleWidth : 0 < o.acceptingCircleWidth
  initArrowWidth : 0 < o.initArrowWidth
  transLineWidth : 0 < o.transLineWidth
  radius : 0 ≤ o.circleRadius * o.xScale
  acceptingRadius : 0 ≤ o.acceptingCircleRadius * o.xScale

/-! ## All lines -/

/-- The lines that are drawn: ends and width. -/
def lines (ops : List Op) : List (Pos2 × Pos2 × Rat) := ops.filterMap (fun op => match op with
  | .line a b w => some (a, b, w)
  | _ => none)

/-- A tip with two arms: to `(dx, dy)` and `(dx', dy')` from it. -/
def Options.tip (o : Options) (x y dx dy dx' dy' w : Rat) : List (Pos2 × Pos2 × Rat) :=
  [(o.onCanvas x y, o.onCanvas (x + dx) (y + dy), w), (o.onCanvas x y, o.onCanvas (x + dx') (y + dy'), w)]

/-- The arrow at the left, pointing to the right. -/
def Options.leftArrow (o : Options) (levels : Nat) : List (Pos2 × Pos2 × Rat) :=
  let y := o.stateY levels
  let a := o.initArrowArmsLength
  (o.onCanvas 0 y, o.onCanvas o.initArrowLength y, o.initArrowWidth) :: o.tip o.initArrowLength y (-a) (-a) (-a) a o.initArrowWidth

/-- The mark of an initial state: an arrow below it, pointing upwards. -/
def Options.mark (o : Options) (levels i : Nat) : List (Pos2 × Pos2 × Rat) :=
  let x := o.stateX i
  let y := o.stateY levels + (o.circleRadius + o.centerLinePadding)
  let a := o.initArrowArmsLength
  (o.onCanvas x y, o.onCanvas x (y + o.initArrowLength), o.initArrowWidth) :: o.tip x y a a (-a) a o.initArrowWidth

/-- The side on which the target lies (loops go to the right). -/
def GroupedArrow.side (g : GroupedArrow) : Rat := if g.target < g.source then -1 else 1

/-- The arrow of a group: two vertical lines and a horizontal one; in its middle a tip pointing to the side of the target; at the target a
tip pointing downwards. -/
def Options.arrow (o : Options) (levels : Nat) (p : PlacedArrow GroupedArrow) : List (Pos2 × Pos2 × Rat) :=
  let l := o.leftEnd p.arrow
  let r := o.rightEnd p.arrow
  let y := o.levelY levels p.level
  let b := o.baseY levels
  let w := o.transLineWidth
  let a := o.transArrowArmsLength
  [(o.onCanvas l b, o.onCanvas l y, w), (o.onCanvas r b, o.onCanvas r y, w), (o.onCanvas l y, o.onCanvas r y, w)] ++
  (if o.middleArrow then o.tip ((l + r) / 2 + p.arrow.side * a / 2) y (-(p.arrow.side * a)) a (-(p.arrow.side * a)) (-a) w else []) ++
  (if o.endArrow then o.tip (o.targetEnd p.arrow) b (-a) (-a) a (-a) w else [])

/-! ## Drawings that look the same -/

/-- The same circles, texts and lines can be seen, in whatever order they were drawn. -/
def SameSight (ops ops' : List Op) : Prop :=
  (∀ x, x ∈ circles ops ↔ x ∈ circles ops') ∧ (∀ x, x ∈ texts ops ↔ x ∈ texts ops') ∧ ∀ x, x ∈ lines ops ↔ x ∈ lines ops'

/-- Sizes with which arrows and accepting states can be recognised: arrows have tips in the middle, with arms; the second circle of an
accepting state is another one than the first; labels are not below their arrows. -/
structure Options.Telling (o : Options) : Prop where
  sensible : o.Sensible
  middle : o.middleArrow = true
  arms : o.transArrowArmsLength ≠ 0
  accepting : o.acceptingCircleRadius ≠ o.circleRadius
  margin : 0 ≤ o.textMargin

/-- Something on the canvas looks like the item, in whatever colour. -/
def Canvas.Shows (c : Canvas.Context) (it : Item) : Prop := ∃ p ∈ c.painted, ∃ k, Canvas.Visible p (it.recolor k)

/-- Something painted with egui looks like the item, in whatever colour. -/
def Egui.Shows (e : Egui.Drawer) (it : Item) : Prop := ∃ x ∈ e.shapes, ∃ k, Egui.Visible x (it.recolor k)

end Draw
end Dandy
