import Verif.Model.Wasm
import Verif.Model.Backends
/-!
# Model of the page website/index.html

The state of the page is what its elements show together with the store of the wasm bindings; an event is an edit of a text area or a
click.  An exception thrown by one of the load functions is an `Except.error`; `none` stands for any
other exception (a panic, or a method of `undefined`), which is proved not to happen.
-/

namespace Dandy
namespace Site
open Wasm (Store LoadError Result)

/-- website/index.html:18,29,50,63,87,103,118,132,147,157,171: the text areas. -/
inductive Area where
  | dfaEq1 | dfaEq2 | nfaEq1 | nfaEq2 | nfaToDfa | nfaToDfaOut | minimize | minimizeOut | regex | regexOut | visualize
deriving DecidableEq

/-- website/index.html:103,132,157: the areas with `readonly`. -/
def Area.readonly : Area → Bool
  | .nfaToDfaOut | .minimizeOut | .regexOut => true
  | _ => false

/-- website/index.html:38,74,98,127,152,182: the buttons. -/
inductive Button where
  | dfaEq | nfaEq | nfaToDfa | minimize | regexToNfa | visualize
deriving DecidableEq

/-- What the page shows (website/index.html:12-186), and the store of the wasm module. -/
structure Page where
  value : Area → Str
  label : Button → Str
  dfaErrors : Str
  nfaErrors : Str
  canvas : Draw.Canvas.Context
  store : Store

/-- Everything from outside. For website/index.html:219-322. -/
structure Env where
  /-- `UnicodeSegmentation`: the length of the first cluster. -/
  cl : Str → Nat
  /-- Whether a character is shown as it is in the `Debug` format of strings (tables of Rust's `core`). -/
  plain : Char → Bool

/-- The environment of the bindings: there is one canvas (website/index.html:185). -/
def Env.wasm (env : Env) : Wasm.Env := ⟨env.cl, fun id => id == c!"nfa-visualization"⟩

/-- The orders of hash maps during a click: in `minimize` and in the drawing code. For
website/index.html:219-322. -/
structure Orders where
  min : Cli.MinOrd
  draw : List Draw.GroupedArrow → List Draw.GroupedArrow

/-- The value of a text area, as a script reads it, has its line ends normalized (HTML standard, "API value").
Read at website/index.html:223-229, 251-257, 277, 291, 303, 314. -/
def normalize : Str → Str
  | [] => []
  | '\r' :: '\n' :: t => '\n' :: normalize t
  | '\r' :: t => '\n' :: normalize t
  | c :: t => c :: normalize t

/-- Writing to `.value` of a text area. website/index.html:279, 283, 306, 317. -/
def Page.setValue (p : Page) (a : Area) (t : Str) : Page :=
  { p with value := fun b => if b = a then normalize t else p.value b }

/-- Writing to `.innerText` of a button. website/index.html:236-243, 264-271, 292-294, 304-308,
315-319. -/
def Page.setLabel (p : Page) (a : Button) (t : Str) : Page :=
  { p with label := fun b => if b = a then t else p.label b }

/-- JavaScript `t.replace("\n", "\r\n")`: replaces the first occurrence. Called at
website/index.html:283, 306, 317. -/
def replaceFirst : Str → Str
  | [] => []
  | '\n' :: t => '\r' :: '\n' :: t
  | c :: t => c :: replaceFirst t

/-- What a call of a load function for this kind gives a script (website/index.html:223,229,251,257,277,291,303,314): a key, or an exception
with a text (wasm-bindgen, `Result<usize, String>`). -/
def loadResult (env : Env) (kind : Str) (x : Store × Result) : Store × Except Str Nat :=
  match x.2 with
  | .loaded (.ok k) => (x.1, .ok k)
  | .loaded (.error e) => (x.1, .error (e.text env.plain kind))
  | _ => (x.1, .error [])

/-- website/index.html:219-232 and 247-260: loading two automata, collecting the errors. -/
def loadTwo (env : Env) (load : Store → Str → Store × Result) (kind : Str) (s : Store) (t1 t2 : Str) : Store × Nat × Nat × Str :=
  let errors := []
  let (s, r) := loadResult env kind (load s t1)
  let (a1, errors) := match r with
    | .ok k => (k, errors)
    | .error e => (0, errors ++ (c!"Error parsing " ++ kind ++ c!" 1: " ++ e ++ c!"\n"))
  let (s, r) := loadResult env kind (load s t2)
  let (a2, errors) := match r with
    | .ok k => (k, errors)
    | .error e => (0, errors ++ (c!"Error parsing " ++ kind ++ c!" 2: " ++ e ++ c!"\n"))
  (s, a1, a2, errors)

/-- website/index.html:236,264: `equal ? "Equivalent" : "Not equivalent"`, where `undefined` is false. -/
def verdictText (r : Result) : Str := if r = .verdict (some true) then c!"Equivalent" else c!"Not equivalent"

/-- website/index.html:218-244 `checkDfaEq`. -/
def checkDfaEq (env : Env) (p : Page) : Option Page := do
  let (s, dfa1, dfa2, errors) := loadTwo env Wasm.loadDfa c!"DFA" p.store (p.value .dfaEq1) (p.value .dfaEq2)
  let p ←
    if errors = [] then do
      let equal ← Wasm.checkDfaEq s dfa1 dfa2
      let s := (Wasm.deleteDfa s dfa1).1
      let s := (Wasm.deleteDfa s dfa2).1
      pure { p.setLabel .dfaEq (verdictText equal) with store := s }
    else pure { p.setLabel .dfaEq c!"Fix errors first!" with store := s }
  return { p with dfaErrors := errors }

/-- website/index.html:246-272 `checkNfaEq`. -/
def checkNfaEq (env : Env) (p : Page) : Option Page := do
  let (s, nfa1, nfa2, errors) := loadTwo env Wasm.loadNfa c!"NFA" p.store (p.value .nfaEq1) (p.value .nfaEq2)
  let p ←
    if errors = [] then do
      let equal ← Wasm.checkNfaEq s nfa1 nfa2
      let s := (Wasm.deleteNfa s nfa1).1
      let s := (Wasm.deleteNfa s nfa2).1
      pure { p.setLabel .nfaEq (verdictText equal) with store := s }
    else pure { p.setLabel .nfaEq c!"Fix errors first!" with store := s }
  return { p with nfaErrors := errors }

/-- A returned key; `undefined` is an exception when it is used as a number (simplified: wasm-bindgen would pass 0).
For website/index.html:277-283, 314-317. -/
def keyOf : Result → Option Nat
  | .key k => k
  | _ => none

/-- A returned table; calling `replace` on `undefined` throws. For website/index.html:283, 306,
317. -/
def tableOf : Result → Option Str
  | .table t => t
  | _ => none

/-- website/index.html:274-286 `nfaToDfa`. -/
def nfaToDfa (env : Env) (p : Page) : Option Page :=
  let (s, r) := loadResult env c!"NFA" (Wasm.loadNfa p.store (p.value .nfaToDfa))
  match r with
  | .error e => some { p.setValue .nfaToDfaOut e with store := s }
  | .ok nfa => do
    let (s, r) ← Wasm.nfaToDfa s nfa
    let dfa ← keyOf r
    let t ← tableOf (← Wasm.dfaToTable s dfa)
    let s := (Wasm.deleteNfa s nfa).1
    let s := (Wasm.deleteDfa s dfa).1
    return { p.setValue .nfaToDfaOut (replaceFirst t) with store := s }

/-- dandy-wasm/src/lib.rs:92-117 `draw_nfa`, the drawing on the context of the canvas (dandy-wasm/src/lib.rs:107-114,
dandy-draw/src/lib.rs:146-154). -/
def paint (ord : List Draw.GroupedArrow → List Draw.GroupedArrow) (ctx : Draw.Canvas.Context) : Result → Option Draw.Canvas.Context
  | .drewNfa (some n) => do
    let ops ← Draw.drawNfa Draw.Options.default ord n
    Draw.Canvas.run (Draw.Canvas.new ctx) ops
  | _ => some ctx

/-- website/index.html:288-298 `visualizeNfa`. -/
def visualizeNfa (env : Env) (o : Orders) (p : Page) : Option Page :=
  let (s, r) := loadResult env c!"NFA" (Wasm.loadNfa p.store (p.value .visualize))
  match r with
  | .error e => some { p.setLabel .visualize e with store := s }
  | .ok nfa => do
    let p := p.setLabel .visualize c!"Visualize!"
    let canvas ← paint o.draw p.canvas (Wasm.drawNfa env.wasm s nfa c!"nfa-visualization")
    return { p with store := s, canvas := canvas }

/-- website/index.html:300-310 `minimizeDfa`. -/
def minimizeDfa (env : Env) (o : Orders) (p : Page) : Option Page :=
  let (s, r) := loadResult env c!"DFA" (Wasm.loadDfa p.store (p.value .minimize))
  match r with
  | .error e => some { p.setLabel .minimize e with store := s }
  | .ok dfa => do
    let p := p.setLabel .minimize c!"Minimize!"
    let (s, _) ← Wasm.minimizeDfa s dfa o.min
    let t ← tableOf (← Wasm.dfaToTable s dfa)
    return { p.setValue .minimizeOut (replaceFirst t) with store := s }

/-- website/index.html:312-321 `regexToNfa`. -/
def regexToNfa (env : Env) (p : Page) : Option Page :=
  let (s, r) := loadResult env c!"Regex" (Wasm.loadRegex env.wasm p.store (p.value .regex))
  match r with
  | .error e => some { p.setLabel .regexToNfa e with store := s }
  | .ok regex => do
    let p := p.setLabel .regexToNfa c!"Convert!"
    let (s, r) := Wasm.regexToNfa s regex
    let nfa ← keyOf r
    let t ← tableOf (← Wasm.nfaToTable s nfa)
    return { p.setValue .regexOut (replaceFirst t) with store := s }

/-- What can happen on the page. The text areas and buttons used by website/index.html:219-322. -/
inductive Event where
  /-- The text in an area is edited (as a whole). -/
  | edit (a : Area) (t : Str)
  | click (b : Button) (o : Orders)

/-- website/index.html:208-216: which function a button calls. -/
def click (env : Env) (o : Orders) (p : Page) : Button → Option Page
  | .dfaEq => checkDfaEq env p
  | .nfaEq => checkNfaEq env p
  | .nfaToDfa => nfaToDfa env p
  | .visualize => visualizeNfa env o p
  | .minimize => minimizeDfa env o p
  | .regexToNfa => regexToNfa env p

/-- One event. A read-only area cannot be edited. The functions of website/index.html:219-322. -/
def step (env : Env) (p : Page) : Event → Option Page
  | .edit a t => some (if a.readonly then p else p.setValue a t)
  | .click b o => click env o p b

/-- website/index.html:63-71, 87-95, 171-179: the same text three times. -/
def exampleNfa : Str :=
  c!"     ε    a       b\n→ s₀ {}   {s₁}    {s₀ s₂}\n  s₁ {s₂} {s₄}    {s₃}\n  s₂ {}   {s₁ s₄} {s₃}\n  s₃ {s₅} {s₄ s₅} {}\n  s₄ {s₃} {}      {s₅}\n* s₅ {}   {s₅}    {s₅}\n    "

/-- website/index.html:12-186: the page after loading. A line end directly after the start tag of a text area is not part of its text. -/
def start : Page where
  value
    | .dfaEq1 => c!"       a  b  c\n→ * s₀ s₁ s₀ s₂\n    s₁ s₂ s₁ s₁\n  * s₂ s₂ s₂ s₂\n    "
    | .dfaEq2 => c!"    a b c\n→ * x z x y\n  * y y y y\n    z y a a\n    a y z a\n    "
    | .nfaEq1 =>
      c!"     a    b    c\n→ s₀ {s₀} {s₁} {s₀ s₂}\n  s₁ {}   {s₃} {s₂}\n  s₂ {}   {s₁} {s₄}\n  s₃ {s₄} {}   {s₃}\n* s₄ {}   {s₄} {}\n     "
    | .nfaEq2 => exampleNfa
    | .nfaToDfa => exampleNfa
    | .nfaToDfaOut => c!"Convert an NFA and\nthe DFA will appear here\n    "
    | .minimize => c!"      a b c\n→ * x z x y\n  * y y y y\n    z y a a\n    a y z a\n    "
    | .minimizeOut => c!"Minimize a DFA and the\nresult will appear here\n    "
    | .regex => c!"(ab)+c\n    "
    | .regexOut => c!"Convert a Regex and the\nresult will appear here\n    "
    | .visualize => exampleNfa
  label
    | .dfaEq => c!"Check!"
    | .nfaEq => c!"Check!"
    | .nfaToDfa => c!"Convert!"
    | .minimize => c!"Minimize!"
    | .regexToNfa => c!"Convert!"
    | .visualize => c!"Visualize!"
  dfaErrors := []
  nfaErrors := []
  canvas := .fresh
  store := .init

/-- The page after events, newest first. The functions of website/index.html:219-322. -/
def history (env : Env) : List Event → Option Page
  | [] => some start
  | e :: es => do step env (← history env es) e

end Site
end Dandy
