import Verif.Model.Backends
import Verif.Model.Chars
import Verif.Model.FaParser
import Verif.Model.Table
import Verif.Model.Validate
/-!
# Model of dandy-egui/src/main.rs: the program with a window

egui calls the closure once per frame. What the user does in a frame is a parameter: the text area may have got a new text, and the button
may have been clicked. What the frame paints for the DFA is a list of shapes (the widgets themselves are left out).
-/

namespace Dandy
namespace Window
open Draw

/-- dandy-cli/tests/example.dfa. The file included at dandy-egui/src/main.rs:9. -/
def exampleFile : Str := c!"       a  b  c\n→ * s₀ s₁ s₀ s₂\n    s₁ s₂ s₁ s₁\n  * s₂ s₂ s₂ s₂\n"

/-- dandy-cli/tests/example2.dfa. The file included at dandy-egui/src/main.rs:16. -/
def example2Dfa : Str := c!"      a b c\n→ * x z x y\n  * y y y y\n    z y a a\n    a y z a"

/-- dandy-cli/tests/example2.nfa. The file included at dandy-egui/src/main.rs:21. -/
def example2Nfa : Str := c!"# An ε-NFA.\n\n     ε    a       b\n\n→ s₀ {}   {s₁}    {s₀ s₂}\n  s₁ {s₂} {s₄}    {s₃}\n  s₂ {}   {s₁ s₄} {s₃}\n  s₃ {s₅} {s₄ s₅} {}\n  s₄ {s₃} {}      {s₅}\n* s₅ {}   {s₅}    {s₅}\n\n# to dfa:\n#                      a                  b\n# -> {s0}              {s1 s2}            {s0 s2}\n#    {s1 s2}           {s1 s2 s3 s4 s5}   {s3 s5}\n#    {s0 s2}           {s1 s2 s3 s4 s5}   {s0 s2 s3 s5}\n#  * {s1 s2 s3 s4 s5}  {s1 s2 s3 s4 s5}   {s3 s5}\n#  * {s3 s5}           {s3 s4 s5}         {s5}\n#  * {s0 s2 s3 s5}     {s1 s2 s3 s4 s5}   {s0 s2 s3 s5}\n#  * {s3 s4 s5}        {s3 s4 s5}         {s5}\n#  * {s5}              {s5}               {s5}\n\n# renamed states:\n#       a b\n# -> a  b c\n#    b  d e\n#    c  d f\n#  * d  d e\n#  * e  g h\n#  * f  d f\n#  * g  g h\n#  * h  h h"

/-- `dandy::parser::dfa(..)` with `try_into`, both with `unwrap` or both with `ok` (dandy-egui/src/main.rs:9-12, 17, 52-54). -/
def readDfa (t : Str) : Option Dfa := do
  match Validate.dfa (← Fa.dfa t) with
  | .ok d => some d
  | .error _ => none

/-- The same for NFAs (dandy-egui/src/main.rs:22). -/
def readNfa (t : Str) : Option Nfa := do
  match Validate.nfa (← Fa.nfa t) with
  | .ok n => some n
  | .error _ => none

/-- dandy-egui/src/main.rs:8-13 `example_dfa`. `none`: panic. -/
def exampleDfa : Option Dfa := readDfa exampleFile

/-- The iteration order of a hash map in the drawing code. dandy-draw/src/lib.rs:521-537. -/
abbrev Order := List GroupedArrow → List GroupedArrow

/-- dandy-egui/src/main.rs:15-25 `test_ascii_draw`: what is written to standard output. `none`: panic. -/
def testAsciiDraw (o1 o2 : Order) : Option Str := do
  let art1 ← dfaAsciiArt o1 (← readDfa example2Dfa)
  let art2 ← nfaAsciiArt o2 (← readNfa example2Nfa)
  return art1 ++ ['\n'] ++ art2 ++ ['\n']

/-- The variables captured by the closure (dandy-egui/src/main.rs:35-36). -/
structure State where
  dfa : Str
  dfaToRender : Str

/-- dandy-egui/src/main.rs:27-36 `main`, until the window opens: standard output and the variables. `none`: panic. -/
def start (o1 o2 : Order) : Option (Str × State) := do
  let out ← testAsciiDraw o1 o2
  let dfa ← (← exampleDfa).toTable
  return (out, ⟨dfa, dfa⟩)

/-- What comes from outside in a frame: the new text in the text area, if it was edited, whether the button was clicked, and the
order of the hash map. dandy-egui/src/main.rs:38-48. -/
structure Frame where
  edit : Option Str
  clicked : Bool
  ord : Order

/-- dandy-egui/src/main.rs:56-58. -/
def options : Options := { Options.default with xOffset := 20, yOffset := 150 }

/-- dandy-egui/src/main.rs:38-63: the closure; the variables afterwards and the shapes of the DFA. `none`: panic. -/
def frame (s : State) (f : Frame) : Option (State × List Egui.Shape) := do
  let dfa := f.edit.getD s.dfa
  let s : State := ⟨dfa, if f.clicked then dfa else s.dfaToRender⟩
  match readDfa s.dfaToRender with
  | some d =>
    let ops ← drawDfa options f.ord d
    return (s, (Egui.run (Egui.new []) ops).shapes)
  | none => return (s, [])

/-- Frames one after the other: the variables and the shapes of the last frame.
dandy-egui/src/main.rs:38-64. -/
def frames (s : State) : List Frame → Option (State × List Egui.Shape)
  | [] => some (s, [])
  | [f] => frame s f
  | f :: fs => do frames (← frame s f).1 fs

end Window
end Dandy
