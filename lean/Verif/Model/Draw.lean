import Verif.Model.Chars
import Verif.Model.Regex
import Mathlib.Data.Rat.Defs
/-!
# Model of dandy-draw/src/lib.rs

The order in which the groups come out of the hash map of `group_arrows` is an argument (`ord`). Panics are `none`. Coordinates of the
drawing are rational numbers instead of `f32`.
-/

namespace Dandy
namespace Draw

/-- dandy-draw/src/lib.rs:590-595 `Direction`. -/
inductive Direction where
  | left
  | right
  | spot
deriving DecidableEq, Repr

/-- dandy-draw/src/lib.rs:555-561 `Arrow`. -/
structure Arrow where
  left : Nat
  right : Nat
  direction : Direction
  label : Str
deriving DecidableEq, Repr

/-- dandy-draw/src/lib.rs:547-553 `GroupedArrow`. -/
structure GroupedArrow where
  left : Nat
  right : Nat
  direction : Direction
  labels : List Str
deriving DecidableEq, Repr

/-- dandy-draw/src/lib.rs:540-545 `PlacedArrow`. -/
structure PlacedArrow (α : Type) where
  arrow : α
  level : Nat
deriving DecidableEq, Repr

/-- dandy-draw/src/lib.rs:640-645 `State`. -/
structure State where
  name : Str
  accepting : Bool
  initial : Bool
deriving DecidableEq, Repr

/-- dandy-draw/src/lib.rs:647-655, the conversion from `DfaState`. -/
def State.ofDfa (s : DfaState) : State := ⟨s.name, s.accepting, s.initial⟩

/-- dandy-draw/src/lib.rs:657-665, the conversion from `NfaState`. -/
def State.ofNfa (s : NfaState) : State := ⟨s.name, s.accepting, s.initial⟩

/-- dandy-draw/src/lib.rs:563-588 `Arrow::new`. -/
def Arrow.new (source target : Nat) (label : Str) : Arrow :=
  match compare source target with
  | .lt => ⟨source, target, .right, label⟩
  | .eq => ⟨source, target, .spot, label⟩
  | .gt => ⟨target, source, .left, label⟩

/-- dandy-draw/src/lib.rs:635-637 `GroupedArrow::label`. -/
def GroupedArrow.label (g : GroupedArrow) : Str := List.intercalate c!", " g.labels

/-- The arrows of one state (dandy-draw/src/lib.rs:454-459). `none`: there is no such element in the alphabet. -/
def stateArrows (alphabet : List Str) (source : Nat) (s : DfaState) : Option (List Arrow) :=
  s.transitions.zipIdx.mapM (fun x => alphabet[x.2]?.map (Arrow.new source x.1))

/-- dandy-draw/src/lib.rs:450-462 `dfa_to_arrows`. -/
def dfaToArrows (d : Dfa) : Option (List Arrow) :=
  (d.states.zipIdx.mapM (fun x => stateArrows d.alphabet x.2 x.1)).map List.flatten

/-- The arrows for the transitions of one state with one element (dandy-draw/src/lib.rs:473-476). `alphabet[idx]` is only evaluated if
there is a target. -/
def elemArrows (alphabet : List Str) (source : Nat) (idx : Nat) (tos : List Nat) : Option (List Arrow) :=
  tos.mapM (fun t => alphabet[idx]?.map (Arrow.new source t))

/-- The arrows of one state (dandy-draw/src/lib.rs:469-482). -/
def nfaStateArrows (alphabet : List Str) (source : Nat) (s : NfaState) : Option (List Arrow) := do
  let as ← s.transitions.zipIdx.mapM (fun x => elemArrows alphabet source x.2 x.1)
  return as.flatten ++ s.epsilonTransitions.map (fun t => Arrow.new source t c!"ε")

/-- dandy-draw/src/lib.rs:464-485 `nfa_to_arrows`. -/
def nfaToArrows (n : Nfa) : Option (List Arrow) :=
  (n.states.zipIdx.mapM (fun x => nfaStateArrows n.alphabet x.2 x.1)).map List.flatten

section place
variable {α : Type} (left right : α → Nat)

/-- `sort_by_key` (stable) by `usize::MAX - right` (dandy-draw/src/lib.rs:489): an arrow goes before those already there with the same
or a smaller right end. -/
def insertArrow (a : α) : List α → List α
  | [] => [a]
  | b :: bs => if right b ≤ right a then a :: b :: bs else b :: insertArrow a bs

/-- dandy-draw/src/lib.rs:489, the sorting: the last arrow is inserted first. -/
def sortArrows (as : List α) : List α := as.foldr (insertArrow right) []

/-- One pass (dandy-draw/src/lib.rs:497-512) over the arrows in the order in which they are popped: those placed and those pushed to
`unplaced`. -/
def pass (depth : Nat) : Nat → List α → List (PlacedArrow α) × List α
  | _, [] => ([], [])
  | endOfLast, a :: as =>
    if left a ≥ endOfLast then
      let (placed, unplaced) := pass depth (if left a = right a then right a + 1 else right a) as
      (⟨a, depth⟩ :: placed, unplaced)
    else
      let (placed, unplaced) := pass depth endOfLast as
      (placed, a :: unplaced)

/-- The outer loop (dandy-draw/src/lib.rs:494-516). `none`: it does not end with this fuel. -/
def placeLoop : Nat → Nat → List α → List (PlacedArrow α) → Option (List (PlacedArrow α) × Nat)
  | 0, _, _, _ => none
  | fuel + 1, depth, unplaced, placed =>
    if unplaced.isEmpty then some (placed, depth)
    else
      let (now, later) := pass left right depth 0 unplaced.reverse
      placeLoop fuel (depth + 1) later.reverse (placed ++ now)

/-- dandy-draw/src/lib.rs:487-519 `place_arrows`. -/
def placeArrows (as : List α) : Option (List (PlacedArrow α) × Nat) :=
  placeLoop left right (as.length + 1) 0 (sortArrows right as) []

end place

/-- `HashMap::entry(key).or_default().push(arrow)` (dandy-draw/src/lib.rs:525-527). The entries are kept in the order of insertion. -/
def addArrow (a : Arrow) : List GroupedArrow → List GroupedArrow
  | [] => [⟨a.left, a.right, a.direction, [a.label]⟩]
  | g :: gs =>
    if (g.left, g.right, g.direction) = (a.left, a.right, a.direction) then { g with labels := g.labels ++ [a.label] } :: gs
    else g :: addArrow a gs

/-- dandy-draw/src/lib.rs:521-538 `group_arrows`; `ord` is the iteration order of `drain`. -/
def groupArrows (ord : List GroupedArrow → List GroupedArrow) (as : List Arrow) : List GroupedArrow :=
  ord (as.foldl (fun map a => addArrow a map) [])

/-- Grouping, then placing (dandy-draw/src/lib.rs:170-171, 332-333). -/
def layout (ord : List GroupedArrow → List GroupedArrow) (as : List Arrow) : Option (List (PlacedArrow GroupedArrow) × Nat) :=
  placeArrows GroupedArrow.left GroupedArrow.right (groupArrows ord as)

/-! ## ASCII art -/

/-- dandy-draw/src/lib.rs:335-338 `left_x_idx`; `w` is the longest name. -/
def leftX (w idx : Nat) : Nat := 5 + (7 + w) * idx

/-- dandy-draw/src/lib.rs:339-342 `right_x_idx`. -/
def rightX (w idx : Nat) : Nat := 6 + w + (7 + w) * idx

/-- dandy-draw/src/lib.rs:343 `art_width`. -/
def artWidth (w n : Nat) : Nat := rightX w n - 1

/-- dandy-draw/src/lib.rs:329 `widest_state_name`; `none` for no states (the `unwrap`). -/
def widest (states : List State) : Option Nat := (states.map (fun s => s.name.length)).max?

/-- The closure `pad` (dandy-draw/src/lib.rs:346-354). -/
def pad (s : Str) (l : Nat) : Str := if s.length < l then s ++ List.replicate (l - s.length) ' ' else s

/-- One state in the last line (dandy-draw/src/lib.rs:358-364). -/
def stateText (w : Nat) (s : State) : Str :=
  if s.accepting then c!"(( " ++ pad s.name w ++ c!" )) " else c!"(  " ++ pad s.name w ++ c!"  ) "

/-- dandy-draw/src/lib.rs:345-366 `last_line`. -/
def lastLine (w : Nat) (states : List State) : Str := c!"-> " ++ (states.map (stateText w)).flatten

/-- `line.as_bytes_mut()[i] = c`. All characters of the line are one byte long when this is used, so the `i`-th byte is the `i`-th
character. `none`: index out of bounds. dandy-draw/src/lib.rs:375-376,
dandy-draw/src/lib.rs:391-408. -/
def setByte (line : Str) (w : Nat × Char) : Option Str := if w.1 < line.length then some (line.set w.1 w.2) else none

/-- Several assignments one after the other. dandy-draw/src/lib.rs:374-408. -/
def setBytes (line : Str) (ws : List (Nat × Char)) : Option Str := ws.foldlM setByte line

/-- The bytes of the top line written for an arrow (dandy-draw/src/lib.rs:383-403). -/
def topBytes (w : Nat) (g : GroupedArrow) : List (Nat × Char) :=
  let (leftmost, rightmost) := if g.direction = .spot then (leftX w g.left, rightX w g.right) else (rightX w g.left, leftX w g.right)
  (List.range' leftmost (rightmost + 1 - leftmost)).map (fun x => (x, '-')) ++
    [match g.direction with
      | .left => (leftX w g.right - 1, '<')
      | .right => (rightX w g.left + 2, '>')
      | .spot => (leftX w g.left + 1, '>')]

/-- The columns of the vertical bars of an arrow (dandy-draw/src/lib.rs:405-408). -/
def barsOf (w : Nat) (g : GroupedArrow) : List Nat := [rightX w g.left, leftX w g.right]

/-- `str::char_indices().nth(n)`: the byte at which the `n`-th character begins (dandy-draw/src/lib.rs:426). -/
def charIndex (line : Str) (n : Nat) : Option Nat := if n < line.length then some (RegexTree.byteLen (line.take n)) else none

/-- Splitting a string at a byte; `none` if the byte is not the beginning of a character or the end of the string.
For dandy-draw/src/lib.rs:430. -/
def splitByte : Str → Nat → Option (Str × Str)
  | cs, 0 => some ([], cs)
  | [], _ + 1 => none
  | c :: cs, i + 1 => if c.utf8Size ≤ i + 1 then (splitByte cs (i + 1 - c.utf8Size)).map (fun x => (c :: x.1, x.2)) else none

/-- `String::replace_range(a..b, s)` for `a ≤ b`: panics if `a` or `b` is not on the boundary of a character.
Called at dandy-draw/src/lib.rs:430. -/
def replaceRange (line : Str) (a b : Nat) (s : Str) : Option Str := do
  let (pre, _) ← splitByte line a
  let (_, post) ← splitByte line b
  return pre ++ s ++ post

/-- Writing the label of an arrow (dandy-draw/src/lib.rs:418-431). -/
def writeLabel (w : Nat) (bot : Str) (g : GroupedArrow) : Option Str :=
  if g.left ≠ g.right then do
    let start ← charIndex bot (rightX w g.left)
    replaceRange bot (start + 1) (start + g.label.length + 1) g.label
  else some bot

/-- The two lines of a level and the bars after it (dandy-draw/src/lib.rs:370-442). `bars` is the hash set. -/
def levelLines (w n : Nat) (arrows : List (PlacedArrow GroupedArrow)) (level : Nat) (bars : List Nat) : Option (Str × Str × List Nat) := do
  let here := (arrows.filter (fun a => a.level = level)).map (·.arrow)
  let blank := List.replicate (artWidth w n) ' '
  let top ← setBytes blank (bars.map (fun b => (b, '|')))
  let bot ← setBytes blank (bars.map (fun b => (b, '|')))
  let top ← setBytes top (here.flatMap (topBytes w))
  let newBars := here.flatMap (barsOf w)
  let bot ← setBytes bot (newBars.map (fun b => (b, '|')))
  let bot ← here.foldlM (writeLabel w) bot
  return (top, bot, bars ++ newBars)

/-- The loop over the levels from the highest to the lowest (dandy-draw/src/lib.rs:368-445): levels `level - 1, …, 0`. -/
def artLines (w n : Nat) (arrows : List (PlacedArrow GroupedArrow)) : Nat → List Nat → Option (List Str)
  | 0, _ => some []
  | level + 1, bars => do
    let (top, bot, bars) ← levelLines w n arrows level bars
    let rest ← artLines w n arrows level bars
    return top :: bot :: rest

/-- dandy-draw/src/lib.rs:328-448 `ascii_art`. -/
def asciiArt (ord : List GroupedArrow → List GroupedArrow) (states : List State) (arrows : List Arrow) : Option Str := do
  let w ← widest states
  let (placed, levels) ← layout ord arrows
  let lines ← artLines w states.length placed levels []
  return List.intercalate c!"\n" (lines ++ [lastLine w states])

/-- dandy-draw/src/lib.rs:316-320 `dfa_ascii_art`. -/
def dfaAsciiArt (ord : List GroupedArrow → List GroupedArrow) (d : Dfa) : Option Str := do
  let arrows ← dfaToArrows d
  asciiArt ord (d.states.map State.ofDfa) arrows

/-- dandy-draw/src/lib.rs:322-326 `nfa_ascii_art`. -/
def nfaAsciiArt (ord : List GroupedArrow → List GroupedArrow) (n : Nfa) : Option Str := do
  let arrows ← nfaToArrows n
  asciiArt ord (n.states.map State.ofNfa) arrows

/-! ## Drawing -/

/-- dandy-draw/src/pos2.rs:7-11 `Pos2`. Simplification: rational numbers instead of `f32`. -/
structure Pos2 where
  x : Rat
  y : Rat
deriving DecidableEq

namespace Pos2

/-- dandy-draw/src/pos2.rs:31-40. -/
instance : Add Pos2 := ⟨fun a b => ⟨a.x + b.x, a.y + b.y⟩⟩

/-- dandy-draw/src/pos2.rs:42-51. -/
instance : Sub Pos2 := ⟨fun a b => ⟨a.x - b.x, a.y - b.y⟩⟩

/-- dandy-draw/src/pos2.rs:64-73. -/
instance : Mul Pos2 := ⟨fun a b => ⟨a.x * b.x, a.y * b.y⟩⟩

/-- dandy-draw/src/pos2.rs:26-28 `Pos2::y`. -/
def ofY (y : Rat) : Pos2 := ⟨0, y⟩

end Pos2

/-- `[u8; 3]`. dandy-draw/src/lib.rs:23,130-132. -/
abbrev Color := Fin 256 × Fin 256 × Fin 256

/-- The calls of a `Drawer` (dandy-draw/src/lib.rs:16-24; `draw_rect` is not used by `draw`). -/
inductive Op where
  | start
  | finish
  | circle (pos : Pos2) (radius thickness : Rat)
  | text (pos : Pos2) (s : Str)
  | line (a b : Pos2) (thickness : Rat)
  | color (rgb : Color)
deriving DecidableEq

/-- dandy-draw/src/lib.rs:107-134 `DrawOptions`. -/
structure Options where
  xScale : Rat
  yScale : Rat
  xOffset : Rat
  yOffset : Rat
  centerLinePadding : Rat
  circleRadius : Rat
  circleWidth : Rat
  acceptingCircleRadius : Rat
  acceptingCircleWidth : Rat
  initArrowLength : Rat
  initArrowArmsLength : Rat
  initArrowWidth : Rat
  transArrowArmsLength : Rat
  transLineWidth : Rat
  fromLineOffset : Rat
  toLineOffset : Rat
  floorHeight : Rat
  textMargin : Rat
  lineCircleMargin : Rat
  endArrow : Bool
  middleArrow : Bool
  textColor : Color
  circleColor : Color
  lineColor : Color

/-- dandy-draw/src/lib.rs:109-132, the default values. -/
def Options.default : Options where
  xScale := 1
  yScale := 1
  xOffset := 0
  yOffset := 0
  centerLinePadding := 20
  circleRadius := 30
  circleWidth := 2
  acceptingCircleRadius := 25
  acceptingCircleWidth := 2
  initArrowLength := 50
  initArrowArmsLength := 15
  initArrowWidth := 3
  transArrowArmsLength := 5
  transLineWidth := 3
  fromLineOffset := 15
  toLineOffset := 15
  floorHeight := 25
  textMargin := 15
  lineCircleMargin := 10
  endArrow := true
  middleArrow := true
  textColor := (255, 255, 255)
  circleColor := (150, 255, 255)
  lineColor := (0, 255, 255)

/-- dandy-draw/src/lib.rs:32-69 `OffsetScaleDrawer`. -/
def Op.place (offset scale : Pos2) : Op → Op
  | .start => .start
  | .finish => .finish
  | .circle pos radius thickness => .circle ((pos + offset) * scale) (radius * scale.x) thickness
  | .text pos s => .text ((pos + offset) * scale) s
  | .line a b thickness => .line ((a + offset) * scale) ((b + offset) * scale) thickness
  | .color rgb => .color rgb

section draw
variable (o : Options)

/-- dandy-draw/src/lib.rs:173-178 `x_pos`. -/
def xPos (idx : Nat) : Rat :=
  o.initArrowLength + o.centerLinePadding + o.circleRadius + (o.circleRadius * 2 + o.centerLinePadding) * (idx : Rat)

/-- dandy-draw/src/lib.rs:180 `x_from_pos`. -/
def xFromPos (idx : Nat) : Rat := xPos o idx + o.fromLineOffset

/-- dandy-draw/src/lib.rs:182 `x_to_pos`. -/
def xToPos (idx : Nat) : Rat := xPos o idx - o.toLineOffset

/-- dandy-draw/src/lib.rs:184 `line_baseline`. -/
def lineBaseline (levels : Nat) : Rat := ((levels + 1 : Nat) : Rat) * o.floorHeight

/-- dandy-draw/src/lib.rs:185 `circle_center`. -/
def circleCenter (levels : Nat) : Rat := lineBaseline o levels + o.lineCircleMargin + o.circleRadius

/-- The arrow at the left (dandy-draw/src/lib.rs:188-204). -/
def initOps (levels : Nat) : List Op :=
  let y := circleCenter o levels
  let base : Pos2 := ⟨o.initArrowLength, y⟩
  [.color o.lineColor, .line ⟨0, y⟩ base o.initArrowWidth,
    .line ⟨o.initArrowLength, y⟩ (base - ⟨o.initArrowArmsLength, o.initArrowArmsLength⟩) o.initArrowWidth,
    .line ⟨o.initArrowLength, y⟩ (base - ⟨o.initArrowArmsLength, -o.initArrowArmsLength⟩) o.initArrowWidth]

/-- One state (dandy-draw/src/lib.rs:207-240). -/
def stateOps (levels idx : Nat) (s : State) : List Op :=
  let cc : Pos2 := ⟨xPos o idx, circleCenter o levels⟩
  [.color o.circleColor, .circle cc o.circleRadius o.circleWidth] ++
  (if s.accepting then [.circle cc o.acceptingCircleRadius o.acceptingCircleWidth] else []) ++
  (if s.initial then
    let start := cc + Pos2.ofY (o.circleRadius + o.centerLinePadding)
    [.color o.lineColor, .line start (start + Pos2.ofY o.initArrowLength) o.initArrowWidth,
      .line start (start + ⟨o.initArrowArmsLength, o.initArrowArmsLength⟩) o.initArrowWidth,
      .line start (start + ⟨-o.initArrowArmsLength, o.initArrowArmsLength⟩) o.initArrowWidth]
  else []) ++
  [.color o.textColor, .text cc s.name]

/-- One arrow (dandy-draw/src/lib.rs:242-312). -/
def arrowOps (levels : Nat) (a : PlacedArrow GroupedArrow) : List Op :=
  let height := o.floorHeight * ((levels - a.level : Nat) : Rat)
  let middle := (xFromPos o a.arrow.left + xToPos o a.arrow.right) / 2
  [.color o.lineColor,
    .line ⟨xFromPos o a.arrow.left, lineBaseline o levels⟩ ⟨xFromPos o a.arrow.left, height⟩ o.transLineWidth,
    .line ⟨xToPos o a.arrow.right, lineBaseline o levels⟩ ⟨xToPos o a.arrow.right, height⟩ o.transLineWidth,
    .line ⟨xFromPos o a.arrow.left, height⟩ ⟨xToPos o a.arrow.right, height⟩ o.transLineWidth] ++
  (if o.middleArrow then
    let mul : Rat := if a.arrow.direction = .left then 1 else -1
    let middle := middle - o.transArrowArmsLength * mul * (1 / 2)
    [.line ⟨middle, height⟩ ⟨middle + mul * o.transArrowArmsLength, height + o.transArrowArmsLength⟩ o.transLineWidth,
      .line ⟨middle, height⟩ ⟨middle + mul * o.transArrowArmsLength, height - o.transArrowArmsLength⟩ o.transLineWidth]
  else []) ++
  (if o.endArrow then
    let base : Pos2 := if a.arrow.direction = .right then ⟨xToPos o a.arrow.right, lineBaseline o levels⟩
      else ⟨xFromPos o a.arrow.left, lineBaseline o levels⟩
    [.line base (base - ⟨o.transArrowArmsLength, o.transArrowArmsLength⟩) o.transLineWidth,
      .line base (base - ⟨-o.transArrowArmsLength, o.transArrowArmsLength⟩) o.transLineWidth]
  else []) ++
  [.color o.textColor, .text ⟨middle, height - o.textMargin⟩ a.arrow.label]

/-- dandy-draw/src/lib.rs:156-314 `draw`: the calls received by the drawer. -/
def draw (ord : List GroupedArrow → List GroupedArrow) (states : List State) (arrows : List Arrow) : Option (List Op) := do
  let (placed, levels) ← layout ord arrows
  let ops := [Op.start] ++ initOps o levels ++ (states.zipIdx.flatMap (fun x => stateOps o levels x.2 x.1)) ++
    placed.flatMap (arrowOps o levels) ++ [Op.finish]
  return ops.map (Op.place ⟨o.xOffset, o.yOffset⟩ ⟨o.xScale, o.yScale⟩)

/-- dandy-draw/src/lib.rs:136-144 `draw_dfa`, `draw_dfa_with_opts`. -/
def drawDfa (ord : List GroupedArrow → List GroupedArrow) (d : Dfa) : Option (List Op) := do
  let arrows ← dfaToArrows d
  draw o ord (d.states.map State.ofDfa) arrows

/-- dandy-draw/src/lib.rs:146-154 `draw_nfa`, `draw_nfa_with_opts`. -/
def drawNfa (ord : List GroupedArrow → List GroupedArrow) (n : Nfa) : Option (List Op) := do
  let arrows ← nfaToArrows n
  draw o ord (n.states.map State.ofNfa) arrows

end draw

end Draw
end Dandy
