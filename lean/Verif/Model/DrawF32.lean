import Verif.Model.Draw
/-!
# Model of dandy-draw/src/lib.rs `draw` with the arithmetic of `f32`

`Verif/Model/Draw.lean` computes coordinates with rational numbers. Here every arithmetic operation and every conversion from `usize` is followed
by a rounding `r`, as in the Rust code, where they are `f32`. Numbers are still rationals: infinities and NaN do not occur unless options have
enormous values, which is not modelled. Changing the sign is exact.
-/

namespace Dandy
namespace Draw
namespace F32

variable (r : Rat → Rat)

/-- `+` of `f32`. dandy-draw/src/pos2.rs:31-40, dandy-draw/src/lib.rs:173-185. -/
def add (a b : Rat) : Rat := r (a + b)

/-- `-` of `f32`. dandy-draw/src/pos2.rs:42-51, dandy-draw/src/lib.rs:182. -/
def sub (a b : Rat) : Rat := r (a - b)

/-- `*` of `f32`. dandy-draw/src/pos2.rs:64-73, dandy-draw/src/lib.rs:177. -/
def mul (a b : Rat) : Rat := r (a * b)

/-- `/` of `f32`. dandy-draw/src/lib.rs:261. -/
def div (a b : Rat) : Rat := r (a / b)

/-- dandy-draw/src/pos2.rs:31-40. -/
def addP (a b : Pos2) : Pos2 := ⟨add r a.x b.x, add r a.y b.y⟩

/-- dandy-draw/src/pos2.rs:42-51. -/
def subP (a b : Pos2) : Pos2 := ⟨sub r a.x b.x, sub r a.y b.y⟩

/-- dandy-draw/src/pos2.rs:64-73. -/
def mulP (a b : Pos2) : Pos2 := ⟨mul r a.x b.x, mul r a.y b.y⟩

/-- dandy-draw/src/lib.rs:32-69 `OffsetScaleDrawer`. -/
def place (offset scale : Pos2) : Op → Op
  | .start => .start
  | .finish => .finish
  | .circle pos radius thickness => .circle (mulP r (addP r pos offset) scale) (mul r radius scale.x) thickness
  | .text pos s => .text (mulP r (addP r pos offset) scale) s
  | .line a b thickness => .line (mulP r (addP r a offset) scale) (mulP r (addP r b offset) scale) thickness
  | .color rgb => .color rgb

variable (o : Options)

/-- dandy-draw/src/lib.rs:173-178 `x_pos`. -/
def xPos (idx : Nat) : Rat :=
  add r (add r (add r o.initArrowLength o.centerLinePadding) o.circleRadius)
    (mul r (add r (mul r o.circleRadius 2) o.centerLinePadding) (r idx))

/-- dandy-draw/src/lib.rs:180 `x_from_pos`. -/
def xFromPos (idx : Nat) : Rat := add r (xPos r o idx) o.fromLineOffset

/-- dandy-draw/src/lib.rs:182 `x_to_pos`. -/
def xToPos (idx : Nat) : Rat := sub r (xPos r o idx) o.toLineOffset

/-- dandy-draw/src/lib.rs:184 `line_baseline`. -/
def lineBaseline (levels : Nat) : Rat := mul r (r ((levels + 1 : Nat) : Rat)) o.floorHeight

/-- dandy-draw/src/lib.rs:185 `circle_center`. -/
def circleCenter (levels : Nat) : Rat := add r (add r (lineBaseline r o levels) o.lineCircleMargin) o.circleRadius

/-- The arrow at the left (dandy-draw/src/lib.rs:188-204). -/
def initOps (levels : Nat) : List Op :=
  let y := circleCenter r o levels
  let base : Pos2 := ⟨o.initArrowLength, y⟩
  [.color o.lineColor, .line ⟨0, y⟩ base o.initArrowWidth,
    .line ⟨o.initArrowLength, y⟩ (subP r base ⟨o.initArrowArmsLength, o.initArrowArmsLength⟩) o.initArrowWidth,
    .line ⟨o.initArrowLength, y⟩ (subP r base ⟨o.initArrowArmsLength, -o.initArrowArmsLength⟩) o.initArrowWidth]

/-- One state (dandy-draw/src/lib.rs:207-240). -/
def stateOps (levels idx : Nat) (s : State) : List Op :=
  let cc : Pos2 := ⟨xPos r o idx, circleCenter r o levels⟩
  [.color o.circleColor, .circle cc o.circleRadius o.circleWidth] ++
  (if s.accepting then [.circle cc o.acceptingCircleRadius o.acceptingCircleWidth] else []) ++
  (if s.initial then
    let start := addP r cc (Pos2.ofY (add r o.circleRadius o.centerLinePadding))
    [.color o.lineColor, .line start (addP r start (Pos2.ofY o.initArrowLength)) o.initArrowWidth,
      .line start (addP r start ⟨o.initArrowArmsLength, o.initArrowArmsLength⟩) o.initArrowWidth,
      .line start (addP r start ⟨-o.initArrowArmsLength, o.initArrowArmsLength⟩) o.initArrowWidth]
  else []) ++
  [.color o.textColor, .text cc s.name]

/-- One arrow (dandy-draw/src/lib.rs:242-312). -/
def arrowOps (levels : Nat) (a : PlacedArrow GroupedArrow) : List Op :=
  let height := mul r o.floorHeight (r ((levels - a.level : Nat) : Rat))
  let middle := div r (add r (xFromPos r o a.arrow.left) (xToPos r o a.arrow.right)) 2
  [.color o.lineColor,
    .line ⟨xFromPos r o a.arrow.left, lineBaseline r o levels⟩ ⟨xFromPos r o a.arrow.left, height⟩ o.transLineWidth,
    .line ⟨xToPos r o a.arrow.right, lineBaseline r o levels⟩ ⟨xToPos r o a.arrow.right, height⟩ o.transLineWidth,
    .line ⟨xFromPos r o a.arrow.left, height⟩ ⟨xToPos r o a.arrow.right, height⟩ o.transLineWidth] ++
  (if o.middleArrow then
    let dir : Rat := if a.arrow.direction = .left then 1 else -1
    let middle := sub r middle (mul r (mul r o.transArrowArmsLength dir) (1 / 2))
    [.line ⟨middle, height⟩ ⟨add r middle (mul r dir o.transArrowArmsLength), add r height o.transArrowArmsLength⟩ o.transLineWidth,
      .line ⟨middle, height⟩ ⟨add r middle (mul r dir o.transArrowArmsLength), sub r height o.transArrowArmsLength⟩ o.transLineWidth]
  else []) ++
  (if o.endArrow then
    let base : Pos2 := if a.arrow.direction = .right then ⟨xToPos r o a.arrow.right, lineBaseline r o levels⟩
      else ⟨xFromPos r o a.arrow.left, lineBaseline r o levels⟩
    [.line base (subP r base ⟨o.transArrowArmsLength, o.transArrowArmsLength⟩) o.transLineWidth,
      .line base (subP r base ⟨-o.transArrowArmsLength, o.transArrowArmsLength⟩) o.transLineWidth]
  else []) ++
  [.color o.textColor, .text ⟨middle, sub r height o.textMargin⟩ a.arrow.label]

/-- dandy-draw/src/lib.rs:156-314 `draw`: the calls received by the drawer. -/
def draw (ord : List GroupedArrow → List GroupedArrow) (states : List State) (arrows : List Arrow) : Option (List Op) := do
  let (placed, levels) ← layout ord arrows
  let ops := [Op.start] ++ initOps r o levels ++ (states.zipIdx.flatMap (fun x => stateOps r o levels x.2 x.1)) ++
    placed.flatMap (arrowOps r o levels) ++ [Op.finish]
  return ops.map (place r ⟨o.xOffset, o.yOffset⟩ ⟨o.xScale, o.yScale⟩)

/-- dandy-draw/src/lib.rs:136-144 `draw_dfa`, `draw_dfa_with_opts`. -/
def drawDfa (ord : List GroupedArrow → List GroupedArrow) (d : Dfa) : Option (List Op) := do
  let arrows ← dfaToArrows d
  draw r o ord (d.states.map State.ofDfa) arrows

/-- dandy-draw/src/lib.rs:146-154 `draw_nfa`, `draw_nfa_with_opts`. -/
def drawNfa (ord : List GroupedArrow → List GroupedArrow) (n : Nfa) : Option (List Op) := do
  let arrows ← nfaToArrows n
  draw r o ord (n.states.map State.ofNfa) arrows

end F32
end Draw
end Dandy
