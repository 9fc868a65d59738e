import Verif.Model.Draw
/-!
# Model of the two implementations of `Drawer`: dandy-draw/src/canvas.rs and dandy-draw/src/egui.rs

The canvas context of the browser is a state with the attributes that the code sets, the current path and what has been painted so
far. The painter of egui only collects shapes. Colours are given to the context as texts, which it reads by the rules of CSS; coordinates are
rational numbers, fonts are left out. `draw_rect` is left out: `draw` never calls it.
-/

namespace Dandy
namespace Draw

/-! ## canvas.rs -/

namespace Canvas

namespace Css

/-- A number at the beginning of a text, cut off at 255, and what follows it (CSS Color, `<number>`; only numbers without sign, point and
exponent). For the texts given at dandy-draw/src/canvas.rs:68-71. -/
def number (t : Str) : Option (Fin 256 × Str) :=
  match t.takeWhile Char.isDigit with
  | [] => none
  | ds => some (Fin.ofNat 256 (min 255 (Nat.ofDigitChars 10 ds 0)), t.dropWhile Char.isDigit)

/-- Blanks, at least one (CSS Syntax). For the texts given at dandy-draw/src/canvas.rs:68-71. -/
def blanks (t : Str) : Option Str :=
  match t with
  | ' ' :: t => some (t.dropWhile (· == ' '))
  | _ => none

/-- A colour written with `rgb` (CSS Color, the syntax without commas; other ways to write a colour are left out). For the texts given at
dandy-draw/src/canvas.rs:68-71. -/
def color (t : Str) : Option Color :=
  match t with
  | 'r' :: 'g' :: 'b' :: '(' :: t => do
    let (r, t) ← number t
    let (g, t) ← number (← blanks t)
    let (b, t) ← number (← blanks t)
    if t = [')'] then some (r, g, b) else none
  | _ => none

end Css

/-- The commands from which paths are made. The calls on the context in
dandy-draw/src/canvas.rs:25-63. -/
inductive Cmd where
  | moveTo (p : Pos2)
  | lineTo (p : Pos2)
  | arc (p : Pos2) (radius : Rat)
  | close
deriving DecidableEq

/-- Something on the canvas: a stroked path, or a text with the alignment in force. Made by
dandy-draw/src/canvas.rs:29, dandy-draw/src/canvas.rs:38, dandy-draw/src/canvas.rs:44,
dandy-draw/src/canvas.rs:62. -/
inductive Paint where
  | stroke (path : List Cmd) (width : Rat) (color : Color)
  | text (pos : Pos2) (s : Str) (color : Color) (align baseline : Str)
deriving DecidableEq

/-- `CanvasRenderingContext2d` (dandy-draw/src/canvas.rs:4,7), as far as it is used. -/
structure Context where
  textAlign : Str
  textBaseline : Str
  lineWidth : Rat
  strokeStyle : Color
  fillStyle : Color
  path : List Cmd
  painted : List Paint

/-- A new context according to the HTML standard. The argument of dandy-draw/src/canvas.rs:11. -/
def Context.fresh : Context := ⟨c!"start", c!"alphabetic", 1, (0, 0, 0), (0, 0, 0), [], []⟩

namespace Context
variable (c : Context)

/-- `begin_path` (HTML standard). Called at dandy-draw/src/canvas.rs:25,
dandy-draw/src/canvas.rs:33, dandy-draw/src/canvas.rs:58. -/
def beginPath : Context := { c with path := [] }

/-- `set_line_width` (HTML standard): other values are ignored. Called at
dandy-draw/src/canvas.rs:34, dandy-draw/src/canvas.rs:59. -/
def setLineWidth (w : Rat) : Context := if 0 < w then { c with lineWidth := w } else c

/-- `arc` from 0 to 2π (HTML standard): an error for negative radii (`none`: the `unwrap` panics).
Called at dandy-draw/src/canvas.rs:36. -/
def arc (p : Pos2) (radius : Rat) : Option Context := if radius < 0 then none else some { c with path := c.path ++ [.arc p radius] }

/-- `move_to` (HTML standard). Called at dandy-draw/src/canvas.rs:60. -/
def moveTo (p : Pos2) : Context := { c with path := c.path ++ [.moveTo p] }

/-- `line_to` (HTML standard). Called at dandy-draw/src/canvas.rs:61. -/
def lineTo (p : Pos2) : Context := { c with path := c.path ++ [.lineTo p] }

/-- `close_path` (HTML standard): nothing if there is no path. Called at
dandy-draw/src/canvas.rs:39, dandy-draw/src/canvas.rs:63. -/
def closePath : Context := if c.path = [] then c else { c with path := c.path ++ [.close] }

/-- `stroke` (HTML standard): paints the current path, which is kept. Called at
dandy-draw/src/canvas.rs:29, dandy-draw/src/canvas.rs:38, dandy-draw/src/canvas.rs:62. -/
def stroke : Context :=
  if c.path = [] then c else { c with painted := c.painted ++ [.stroke c.path c.lineWidth c.strokeStyle] }

/-- Setting `strokeStyle` to a text (HTML standard): a text that is not a colour is ignored. Called at dandy-draw/src/canvas.rs:68-69. -/
def setStrokeStyle (t : Str) : Context :=
  match Css.color t with
  | some k => { c with strokeStyle := k }
  | none => c

/-- Setting `fillStyle` to a text (HTML standard). Called at dandy-draw/src/canvas.rs:70-71. -/
def setFillStyle (t : Str) : Context :=
  match Css.color t with
  | some k => { c with fillStyle := k }
  | none => c

/-- `fill_text` (HTML standard). Called at dandy-draw/src/canvas.rs:44. -/
def fillText (s : Str) (p : Pos2) : Context := { c with painted := c.painted ++ [.text p s c.fillStyle c.textAlign c.textBaseline] }

end Context

/-- dandy-draw/src/canvas.rs:11-15 `CanvasDrawer::new`. -/
def new (c : Context) : Context := { c with textAlign := c!"center", textBaseline := c!"middle" }

/-- dandy-draw/src/canvas.rs:17-20 `CanvasDrawer::from_element`, when the element has a context. -/
def fromElement (c : Context) : Context := c

/-- `format!("rgb({r} {g} {b})")` (dandy-draw/src/canvas.rs:69,71). -/
def rgbText (c : Color) : Str := c!"rgb(" ++ numStr c.1 ++ [' '] ++ numStr c.2.1 ++ [' '] ++ numStr c.2.2 ++ [')']

/-- dandy-draw/src/canvas.rs:23-73: the methods of `Drawer`. `none`: panic. -/
def exec (c : Context) : Op → Option Context
  | .start => some c.beginPath
  | .finish => some c.stroke
  | .circle pos radius thickness => do
    let c := c.beginPath.setLineWidth thickness
    let c ← c.arc pos radius
    return c.stroke.closePath
  | .text pos s => some (c.fillText s pos)
  | .line a b thickness =>
    let c := (((c.beginPath).setLineWidth thickness).moveTo a).lineTo b
    some c.stroke.closePath
  | .color rgb => some ((c.setStrokeStyle (rgbText rgb)).setFillStyle (rgbText rgb))

/-- A drawing: its calls one after the other. The calls made by dandy-draw/src/lib.rs:156-314. -/
def run (c : Context) (ops : List Op) : Option Context := ops.foldlM exec c

end Canvas

/-! ## egui.rs -/

namespace Egui

/-- The shapes given to the painter; `centered`: `Align2::CENTER_CENTER`.
dandy-draw/src/egui.rs:27-52. -/
inductive Shape where
  | circleStroke (center : Pos2) (radius width : Rat) (color : Color)
  | lineSegment (a b : Pos2) (width : Rat) (color : Color)
  | text (pos : Pos2) (centered : Bool) (s : Str) (color : Color)
deriving DecidableEq

/-- dandy-draw/src/egui.rs:7-10 `EguiDrawer`: the shapes painted so far, and the colour. -/
structure Drawer where
  shapes : List Shape
  color : Color

/-- dandy-draw/src/egui.rs:5, 13-18 `EguiDrawer::new`, for a painter with these shapes. -/
def new (shapes : List Shape) : Drawer := ⟨shapes, (0, 255, 0)⟩

/-- dandy-draw/src/egui.rs:21-58: the methods of `Drawer`. -/
def exec (e : Drawer) : Op → Drawer
  | .start => e
  | .finish => e
  | .circle pos radius thickness => { e with shapes := e.shapes ++ [.circleStroke pos radius thickness e.color] }
  | .text pos s => { e with shapes := e.shapes ++ [.text pos true s e.color] }
  | .line a b thickness => { e with shapes := e.shapes ++ [.lineSegment a b thickness e.color] }
  | .color rgb => { e with color := rgb }

/-- A drawing: its calls one after the other. The calls made by dandy-draw/src/lib.rs:156-314. -/
def run (e : Drawer) (ops : List Op) : Drawer := ops.foldl exec e

end Egui
end Draw
end Dandy
