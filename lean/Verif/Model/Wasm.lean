import Verif.Model.Cli
/-!
# Model of dandy-wasm/src/lib.rs

The thread local maps and the key generator are a state (`Store`), a call of an exported function is a transition. The wasm-bindgen
glue, the page and the drawing itself are not modelled: `Env.canvas` says whether there is a canvas with the given id.
-/

namespace Dandy
namespace Wasm

/-- `HashMap<usize, T>`: the entries, newest first, with different keys.
dandy-wasm/src/lib.rs:34-36. -/
abbrev Map (α : Type) := List (Nat × α)

/-- `HashMap::get`. Called at dandy-wasm/src/lib.rs:65, 93, 122, 129, 135, 142, 149, 154. -/
def Map.get {α : Type} (m : Map α) (k : Nat) : Option α := (m.find? (fun p => p.1 == k)).map (·.2)

/-- `HashMap::remove` (the map after it; the result is what `get` returns before). Called at
dandy-wasm/src/lib.rs:54, 159, 179, 201. -/
def Map.remove {α : Type} (m : Map α) (k : Nat) : Map α := m.filter (fun p => p.1 != k)

/-- `HashMap::insert`: replaces the value of an existing key. Called at
dandy-wasm/src/lib.rs:172, 194, 216. -/
def Map.insert {α : Type} (m : Map α) (k : Nat) (a : α) : Map α := (k, a) :: m.remove k

/-- Writing through `HashMap::get_mut`. dandy-wasm/src/lib.rs:60. -/
def Map.put {α : Type} (m : Map α) (k : Nat) (a : α) : Map α := m.map (fun p => if p.1 == k then (p.1, a) else p)

/-- dandy-wasm/src/lib.rs:33-38: the three maps, and the next number of `KEYGEN`. -/
structure Store where
  dfas : Map Dfa
  nfas : Map Nfa
  regexes : Map RegexTree
  nextKey : Nat

/-- dandy-wasm/src/lib.rs:33-38, the initial values. -/
def Store.init : Store := ⟨[], [], [], 1⟩

/-- Everything from outside. For dandy-wasm/src/lib.rs:52-220. -/
structure Env where
  /-- `UnicodeSegmentation`: the length of the first cluster. -/
  cl : Str → Nat
  /-- There is a canvas element with this id (dandy-wasm/src/lib.rs:69-77, 97-105). -/
  canvas : Str → Bool

/-- The errors of the load functions (dandy-wasm/src/lib.rs:165,185,187,207,209). -/
inductive LoadError where
  | parse (e : NomError)
  | validate (e : ParseError)
deriving DecidableEq, Repr

/-- The texts of these errors (dandy-wasm/src/lib.rs:165,185-186,207-208; the message of `validate`: dandy/src/dfa/parse.rs:9-22,
dandy/src/nfa/parse.rs:9-22). `kind` is "Regex", "DFA" or "NFA". -/
def LoadError.text (plain : Char → Bool) (kind : Str) : LoadError → Str
  | parse e => c!"Error parsing " ++ kind ++ c!": " ++ e.debug plain
  | validate e => Cli.parseErrorText e

/-- The exported functions with their arguments. `o` are the iteration orders of hash sets in `minimize`.
dandy-wasm/src/lib.rs:52-220. -/
inductive Call where
  | regexToNfa (regex : Nat)
  | minimizeDfa (dfa : Nat) (o : Cli.MinOrd)
  | drawDfa (dfa : Nat) (canvasId : Str)
  | drawNfa (nfa : Nat) (canvasId : Str)
  | checkDfaEq (dfa1 dfa2 : Nat)
  | checkNfaEq (nfa1 nfa2 : Nat)
  | dfaToNfa (dfa : Nat)
  | nfaToDfa (nfa : Nat)
  | dfaToTable (dfa : Nat)
  | nfaToTable (nfa : Nat)
  | deleteRegex (regex : Nat)
  | deleteDfa (dfa : Nat)
  | deleteNfa (nfa : Nat)
  | loadRegex (input : Str)
  | loadDfa (input : Str)
  | loadNfa (input : Str)

/-- The values the functions return; for the draw functions also what has been drawn.
dandy-wasm/src/lib.rs:52-220. -/
inductive Result where
  | loaded (r : Except LoadError Nat)
  | key (k : Option Nat)
  | flag (b : Bool)
  | verdict (b : Option Bool)
  | table (t : Option Str)
  | drewDfa (d : Option Dfa)
  | drewNfa (n : Option Nfa)
deriving DecidableEq

/-- dandy-wasm/src/lib.rs:221-223 `gen_key`. -/
def genKey (s : Store) : Nat × Store := (s.nextKey, { s with nextKey := s.nextKey + 1 })

/-- dandy-wasm/src/lib.rs:191-197 `push_dfa`. -/
def pushDfa (s : Store) (d : Dfa) : Nat × Store :=
  let (key, s) := genKey s
  (key, { s with dfas := s.dfas.insert key d })

/-- dandy-wasm/src/lib.rs:213-219 `push_nfa`. -/
def pushNfa (s : Store) (n : Nfa) : Nat × Store :=
  let (key, s) := genKey s
  (key, { s with nfas := s.nfas.insert key n })

/-- dandy-wasm/src/lib.rs:169-175 `push_regex`. -/
def pushRegex (s : Store) (t : RegexTree) : Nat × Store :=
  let (key, s) := genKey s
  (key, { s with regexes := s.regexes.insert key t })

/-- dandy-wasm/src/lib.rs:52-56 `regex_to_nfa`. -/
def regexToNfa (s : Store) (regex : Nat) : Store × Result :=
  let t := s.regexes.get regex
  let s := { s with regexes := s.regexes.remove regex }
  match t with
  | none => (s, .key none)
  | some t =>
    let (key, s) := pushNfa s t.toNfa
    (s, .key (some key))

/-- dandy-wasm/src/lib.rs:59-61 `minimize_dfa`. `none`: panic. -/
def minimizeDfa (s : Store) (dfa : Nat) (o : Cli.MinOrd) : Option (Store × Result) :=
  match s.dfas.get dfa with
  | none => some (s, .flag false)
  | some d => do
    let m ← d.minimize o.u o.m o.k
    return ({ s with dfas := s.dfas.put dfa m }, .flag true)

/-- dandy-wasm/src/lib.rs:64-89 `draw_dfa`. -/
def drawDfa (env : Env) (s : Store) (dfa : Nat) (canvasId : Str) : Result :=
  match s.dfas.get dfa with
  | none => .drewDfa none
  | some d => if env.canvas canvasId then .drewDfa (some d) else .drewDfa none

/-- dandy-wasm/src/lib.rs:92-117 `draw_nfa`. -/
def drawNfa (env : Env) (s : Store) (nfa : Nat) (canvasId : Str) : Result :=
  match s.nfas.get nfa with
  | none => .drewNfa none
  | some n => if env.canvas canvasId then .drewNfa (some n) else .drewNfa none

/-- dandy-wasm/src/lib.rs:120-124 `check_dfa_eq`. -/
def checkDfaEq (s : Store) (dfa1 dfa2 : Nat) : Option Result :=
  match s.dfas.get dfa1, s.dfas.get dfa2 with
  | some d1, some d2 => do return .verdict (some (← d1.equivalentTo d2))
  | _, _ => some (.verdict none)

/-- dandy-wasm/src/lib.rs:127-131 `check_nfa_eq`. -/
def checkNfaEq (s : Store) (nfa1 nfa2 : Nat) : Option Result :=
  match s.nfas.get nfa1, s.nfas.get nfa2 with
  | some n1, some n2 => do return .verdict (some (← n1.equivalentTo n2))
  | _, _ => some (.verdict none)

/-- dandy-wasm/src/lib.rs:134-138 `dfa_to_nfa`. -/
def dfaToNfa (s : Store) (dfa : Nat) : Store × Result :=
  match s.dfas.get dfa with
  | none => (s, .key none)
  | some d =>
    let (key, s) := pushNfa s d.toNfa
    (s, .key (some key))

/-- dandy-wasm/src/lib.rs:141-145 `nfa_to_dfa`. -/
def nfaToDfa (s : Store) (nfa : Nat) : Option (Store × Result) :=
  match s.nfas.get nfa with
  | none => some (s, .key none)
  | some n => do
    let d ← n.toDfa
    let (key, s) := pushDfa s d
    return (s, .key (some key))

/-- dandy-wasm/src/lib.rs:148-150 `dfa_to_table`. -/
def dfaToTable (s : Store) (dfa : Nat) : Option Result :=
  match s.dfas.get dfa with
  | none => some (.table none)
  | some d => do return .table (some (← d.toTable))

/-- dandy-wasm/src/lib.rs:153-155 `nfa_to_table`. -/
def nfaToTable (s : Store) (nfa : Nat) : Option Result :=
  match s.nfas.get nfa with
  | none => some (.table none)
  | some n => do return .table (some (← n.toTable))

/-- dandy-wasm/src/lib.rs:158-160 `delete_regex`. -/
def deleteRegex (s : Store) (regex : Nat) : Store × Result :=
  ({ s with regexes := s.regexes.remove regex }, .flag (s.regexes.get regex).isSome)

/-- dandy-wasm/src/lib.rs:178-180 `delete_dfa`. -/
def deleteDfa (s : Store) (dfa : Nat) : Store × Result :=
  ({ s with dfas := s.dfas.remove dfa }, .flag (s.dfas.get dfa).isSome)

/-- dandy-wasm/src/lib.rs:200-202 `delete_nfa`. -/
def deleteNfa (s : Store) (nfa : Nat) : Store × Result :=
  ({ s with nfas := s.nfas.remove nfa }, .flag (s.nfas.get nfa).isSome)

/-- dandy-wasm/src/lib.rs:163-167 `load_regex`. -/
def loadRegex (env : Env) (s : Store) (input : Str) : Store × Result :=
  match RegexE.regex env.cl input with
  | .error e => (s, .loaded (.error (.parse e)))
  | .ok t =>
    let (key, s) := pushRegex s t
    (s, .loaded (.ok key))

/-- dandy-wasm/src/lib.rs:183-189 `load_dfa`. -/
def loadDfa (s : Store) (input : Str) : Store × Result :=
  match FaE.dfa input with
  | .error e => (s, .loaded (.error (.parse e)))
  | .ok p =>
    match Validate.dfa p with
    | .error e => (s, .loaded (.error (.validate e)))
    | .ok d =>
      let (key, s) := pushDfa s d
      (s, .loaded (.ok key))

/-- dandy-wasm/src/lib.rs:205-211 `load_nfa`. -/
def loadNfa (s : Store) (input : Str) : Store × Result :=
  match FaE.nfa input with
  | .error e => (s, .loaded (.error (.parse e)))
  | .ok p =>
    match Validate.nfa p with
    | .error e => (s, .loaded (.error (.validate e)))
    | .ok n =>
      let (key, s) := pushNfa s n
      (s, .loaded (.ok key))

/-- One call of an exported function (dandy-wasm/src/lib.rs:51-211). `none`: panic. -/
def call (env : Env) (s : Store) : Call → Option (Store × Result)
  | .regexToNfa k => some (regexToNfa s k)
  | .minimizeDfa k o => minimizeDfa s k o
  | .drawDfa k id => some (s, drawDfa env s k id)
  | .drawNfa k id => some (s, drawNfa env s k id)
  | .checkDfaEq k l => do return (s, ← checkDfaEq s k l)
  | .checkNfaEq k l => do return (s, ← checkNfaEq s k l)
  | .dfaToNfa k => some (dfaToNfa s k)
  | .nfaToDfa k => nfaToDfa s k
  | .dfaToTable k => do return (s, ← dfaToTable s k)
  | .nfaToTable k => do return (s, ← nfaToTable s k)
  | .deleteRegex k => some (deleteRegex s k)
  | .deleteDfa k => some (deleteDfa s k)
  | .deleteNfa k => some (deleteNfa s k)
  | .loadRegex t => some (loadRegex env s t)
  | .loadDfa t => some (loadDfa s t)
  | .loadNfa t => some (loadNfa s t)

/-- A page making the calls one after the other: the state at the end and what each call returned, newest first.
Calls of dandy-wasm/src/lib.rs:52-220. -/
def session (env : Env) : List Call → Option (Store × List (Call × Result))
  | [] => some (.init, [])
  | c :: cs => do
    let (s, h) ← session env cs
    let (s, r) ← call env s c
    return (s, (c, r) :: h)

end Wasm
end Dandy
