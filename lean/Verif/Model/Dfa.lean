import Verif.Model.Basic
import Mathlib.Data.List.Sort
/-!
# Model of dandy/src/dfa/eval.rs and dandy/src/dfa/mod.rs
-/

namespace Dandy

/-- `self.states[i]`. The default is never observed for valid automata (indices are in range).
For instance dandy/src/dfa/mod.rs:596. -/
def Dfa.state (d : Dfa) (i : Nat) : DfaState := d.states.getD i default

/-- dandy/src/dfa/eval.rs:5-11 `DfaEvaluator`. `rev_map` is not stored but computed from the alphabet on demand. -/
structure DfaEval where
  dfa : Dfa
  cur : Nat
  unknown : Bool
deriving DecidableEq, Repr

namespace DfaEval

/-- dandy/src/dfa/eval.rs:69-84 `From<&Dfa>`; also dandy/src/dfa/mod.rs:852-854 `Dfa::evaluator`. -/
def new (d : Dfa) : DfaEval := ⟨d, d.initialState, false⟩

/-- dandy/src/dfa/eval.rs:18-24 `current_state`. -/
def currentState (ev : DfaEval) : Option DfaState :=
  if ev.unknown then none else some (ev.dfa.state ev.cur)

/-- dandy/src/dfa/eval.rs:14-16 `is_accepting`. -/
def isAccepting (ev : DfaEval) : Bool :=
  match ev.currentState with
  | none => false
  | some s => s.accepting

/-- dandy/src/dfa/eval.rs:26-29 `current_state_idx`. -/
def currentStateIdx (ev : DfaEval) : Nat := ev.cur

/-- dandy/src/dfa/eval.rs:41-56 `step`: new evaluator and returned value. -/
def step (ev : DfaEval) (e : Str) : DfaEval × Option DfaState :=
  if ev.unknown then (ev, none)
  else match revGet ev.dfa.alphabet e with
    | none => ({ ev with unknown := true }, none)
    | some i =>
      let ev' := { ev with cur := (ev.dfa.state ev.cur).transitions.getD i 0 }
      (ev', some (ev'.dfa.state ev'.cur))

/-- The `try_for_each` of dandy/src/dfa/eval.rs:59: steps until one step returns `None`. -/
def tryForEach : DfaEval → List Str → DfaEval × Option Unit
  | ev, [] => (ev, some ())
  | ev, e :: es =>
    match ev.step e with
    | (ev', none) => (ev', none)
    | (ev', some _) => tryForEach ev' es

/-- dandy/src/dfa/eval.rs:58-66 `step_multiple`. -/
def stepMultiple (ev : DfaEval) (es : List Str) : DfaEval × Option DfaState :=
  match ev.tryForEach es with
  | (ev', none) => ({ ev' with unknown := true }, none)
  | (ev', some _) => (ev', some (ev'.dfa.state ev'.cur))

/-- dandy/src/dfa/eval.rs:31-39 `step_all`. -/
def stepAll (ev : DfaEval) : List DfaEval := ev.dfa.alphabet.map (fun e => (ev.step e).1)

end DfaEval

namespace Dfa

/-- dandy/src/dfa/mod.rs:788-792 `accepts`. -/
def accepts (d : Dfa) (w : List Str) : Bool := ((DfaEval.new d).stepMultiple w).1.isAccepting

/-- dandy/src/dfa/mod.rs:814-819 `accepts_graphemes`; `seg` is `UnicodeSegmentation::graphemes(_, true)`. -/
def acceptsGraphemes (seg : Str → List Str) (d : Dfa) (s : Str) : Bool :=
  ((DfaEval.new d).stepMultiple (seg s)).1.isAccepting

/-- dandy/src/dfa/mod.rs:845-849 `graphemes_only`. -/
def graphemesOnly (seg : Str → List Str) (d : Dfa) : Bool :=
  d.alphabet.all (fun s => (seg s).length == 1)

/-- dandy/src/dfa/mod.rs:317-321 `invert`. -/
def invert (d : Dfa) : Dfa :=
  { d with states := d.states.map (fun s => { s with accepting := !s.accepting }) }

/-- The key of a pair of evaluators in `explored_states` (dandy/src/dfa/mod.rs:480, 908-911, 925). -/
def pairKey (p : DfaEval × DfaEval) : Nat × Nat := (p.1.currentStateIdx, p.2.currentStateIdx)

/-- The successors of a pair of evaluators, one per element of the first alphabet
(dandy/src/dfa/mod.rs:475-479 and 920-924). -/
def pairSucc (alphabet : List Str) (p : DfaEval × DfaEval) : List (DfaEval × DfaEval) :=
  alphabet.map (fun e => ((p.1.step e).1, (p.2.step e).1))

/-- Fuel for the exploration of state pairs (more than the number of pairs). For the loops after
dandy/src/dfa/mod.rs:467 and dandy/src/dfa/mod.rs:907, which have no fuel. -/
def pairFuel (d o : Dfa) : Nat := d.states.length * o.states.length + 1

/-- `format!("({},{})", a, b)` (dandy/src/dfa/mod.rs:500-503). -/
def pairName (a b : Str) : Str := '(' :: (a ++ ',' :: (b ++ [')']))

/-- dandy/src/dfa/mod.rs:452-552 `product_construction`.
Outer `Option`: `none` is a panic (`unwrap`/`expect`) or non-termination; inner `Option`: the returned value.
`ord` is the iteration order of the hash set `explored_states`.
Simplifications: the combinator is a pure function (with effects: Verif.Model.ProductMut); the entry of `state_data` for a popped pair is recomputed from the
pair afterwards (it only depends on the pair). -/
def product (ord : List (Nat × Nat) → List (Nat × Nat)) (d o : Dfa)
    (combinator : DfaState → DfaState → Bool) : Option (Option Dfa) :=
  if !alphabetEqual d.alphabet o.alphabet then some none
  else
    let init := (DfaEval.new d, DfaEval.new o)
    match explore pairKey (pairSucc d.alphabet) (fun _ => true) (pairFuel d o) [init] [init] [] with
    | none => none
    | some none => none
    | some (some (out, seen)) => do
      let q := (d.initialState, o.initialState)
      -- lines 487-491
      let stateData ← out.mapM (fun p => do
        let s1 ← p.1.currentState
        let s2 ← p.2.currentState
        pure (pairKey p, combinator s1 s2, (pairSucc d.alphabet p).map pairKey))
      -- lines 495-517
      let names := genNames (fun k : Nat × Nat => pairName (d.state k.1).name (o.state k.2).name)
        (ord (seen.map pairKey)) stateData.length
      -- lines 519-526
      let idx := fun k => revGet (stateData.map (·.1)) k
      let initialState ← idx q
      -- lines 528-546
      let states ← stateData.mapM (fun sd => do
        let name ← names.lookup sd.1
        let tr ← sd.2.2.mapM idx
        pure ({ name := name, initial := sd.1 == q, accepting := sd.2.1, transitions := tr } : DfaState))
      pure (some { alphabet := d.alphabet, states := states, initialState := initialState })

/-- dandy/src/dfa/mod.rs:350-352 `union`. -/
def union (ord) (d o : Dfa) := product ord d o (fun s1 s2 => s1.accepting || s2.accepting)
/-- dandy/src/dfa/mod.rs:381-383 `intersection`. -/
def intersection (ord) (d o : Dfa) := product ord d o (fun s1 s2 => s1.accepting && s2.accepting)
/-- dandy/src/dfa/mod.rs:412-414 `difference`. -/
def difference (ord) (d o : Dfa) := product ord d o (fun s1 s2 => s1.accepting && !s2.accepting)
/-- dandy/src/dfa/mod.rs:443-445 `symmetric_difference`. -/
def symmetricDifference (ord) (d o : Dfa) := product ord d o (fun s1 s2 => s1.accepting != s2.accepting)

/-- dandy/src/dfa/mod.rs:899-931 `equivalent_to`. `none`: the loop does not terminate within the fuel. -/
def equivalentTo (d o : Dfa) : Option Bool :=
  if !alphabetEqual d.alphabet o.alphabet then some false
  else
    let init := (DfaEval.new d, DfaEval.new o)
    match explore pairKey (pairSucc d.alphabet) (fun p => p.1.isAccepting == p.2.isAccepting)
        (pairFuel d o) [init] [init] [] with
    | none => none
    | some none => some false
    | some (some _) => some true

/-- dandy/src/dfa/mod.rs:713-724 `reachable_state_idx`. -/
def reachableStateIdx (d : Dfa) : Option (List Nat) :=
  bfs (fun q => some (d.state q).transitions) (d.states.length + 1) [d.initialState] [d.initialState]

/-- dandy/src/dfa/mod.rs:687-692 `unreachable_state_idx`. -/
def unreachableStateIdx (d : Dfa) : Option (List Nat) :=
  d.reachableStateIdx.map (fun r => (List.range d.states.length).filter (· ∉ r))

/-- dandy/src/dfa/mod.rs:704-709 `reachable_states`; `ord`: iteration order of the set. -/
def reachableStates (ord : List Nat → List Nat) (d : Dfa) : Option (List DfaState) :=
  d.reachableStateIdx.map (fun r => (ord r).map d.state)

/-- dandy/src/dfa/mod.rs:678-683 `unreachable_states`; `ord`: iteration order of the set. -/
def unreachableStates (ord : List Nat → List Nat) (d : Dfa) : Option (List DfaState) :=
  d.unreachableStateIdx.map (fun r => (ord r).map d.state)

/-- dandy/src/dfa/mod.rs:696-701 `has_reachable_accepting_state`. -/
def hasReachableAcceptingState (d : Dfa) : Option Bool :=
  d.reachableStateIdx.map (fun r => r.any (fun i => (d.state i).accepting))

/-- dandy/src/dfa/mod.rs:727-734 `remap_transitions` with a mapper whose `None` keeps the target. -/
def remapTransitions (d : Dfa) (mapper : Nat → Option Nat) : Dfa :=
  { d with states := d.states.map (fun s =>
      { s with transitions := s.transitions.map (fun t => (mapper t).getD t) }) }

/-- dandy/src/dfa/mod.rs:742-767 `remove_states`. `none` is a panic: removing the initial state (750), removing an
index out of range (754), or a transition to a removed state (761, debug assertions on).
We model the debug build; as the theorems show that no panic occurs, the release build behaves the same. -/
def removeStates (d : Dfa) (toRemove : List Nat) : Option Dfa := do
  let rm := toRemove.insertionSort (· ≤ ·)
  let initialState ← match binarySearch rm d.initialState with
    | .error lessThan => some (d.initialState - lessThan)
    | .ok _ => none
  let states ← vecRemoveAll rm.reverse d.states
  let old ← vecRemoveAll rm.reverse (List.range d.states.length)
  let states ← states.mapM (fun s => do
    let tr ← s.transitions.mapM (fun t => (binarySearch old t).toOption)
    pure { s with transitions := tr })
  pure { d with states := states, initialState := initialState }

/-- dandy/src/dfa/mod.rs:672-675 `remove_unreachable_states`. `ord`: iteration order of the set. -/
def removeUnreachableStates (ord : List Nat → List Nat) (d : Dfa) : Option Dfa := do
  let u ← d.unreachableStateIdx
  d.removeStates (ord u)

/-- `Vec::swap_remove` for an index in range: the last element takes the place of the removed one.
Called at dandy/src/dfa/mod.rs:650. -/
def swapRemove {α : Type} (l : List α) (i : Nat) : List α :=
  match l.getLast? with
  | none => l
  | some x => (l.set i x).dropLast

/-- The update of the worklist `w` when block `y` of the partition is split into `inters` and `diff`
(dandy/src/dfa/mod.rs:649-657). `w` is the Rust `Vec`, its end is the end of the list. -/
def splitW (w : List (List Nat)) (y inters diff : List Nat) : List (List Nat) :=
  match w.findIdx? (· == y) with
  | some idx => swapRemove w idx ++ [inters, diff]
  | none => if inters.length ≤ diff.length then w ++ [inters] else w ++ [diff]

/-- The `map`/`flat_map` over the partition for one symbol (dandy/src/dfa/mod.rs:638-665):
every block `y` is split by `x`; returns the new partition and the new worklist. -/
def splitAll (x : List Nat) : List (List Nat) → List (List Nat) → List (List Nat) × List (List Nat)
  | [], w => ([], w)
  | y :: ys, w =>
    let inters := y.filter (· ∈ x)
    let diff := y.filter (· ∉ x)
    if inters ≠ [] ∧ diff ≠ [] then
      let r := splitAll x ys (splitW w y inters diff)
      (inters :: diff :: r.1, r.2)
    else
      let r := splitAll x ys w
      (y :: r.1, r.2)

/-- The states with a `c`-transition into `a` (dandy/src/dfa/mod.rs:631-637). -/
def preImage (d : Dfa) (a : List Nat) (c : Nat) : List Nat :=
  (List.range d.states.length).filter (fun i => (d.state i).transitions.getD c 0 ∈ a)

/-- The `for c in 0..self.alphabet.len()` loop (dandy/src/dfa/mod.rs:630-666), over the remaining symbols. -/
def hopcroftSymbols (d : Dfa) (a : List Nat) :
    List Nat → List (List Nat) × List (List Nat) → List (List Nat) × List (List Nat)
  | [], pw => pw
  | c :: cs, pw => hopcroftSymbols d a cs (splitAll (d.preImage a c) pw.1 pw.2)

/-- The `while let Some(a) = w.pop()` loop (dandy/src/dfa/mod.rs:629-667). First argument: fuel. -/
def hopcroftLoop (d : Dfa) : Nat → List (List Nat) → List (List Nat) → Option (List (List Nat))
  | 0, _, _ => none
  | k + 1, p, w =>
    match w.getLast? with
    | none => some p
    | some a =>
      let pw := hopcroftSymbols d a (List.range d.alphabet.length) (p, w.dropLast)
      hopcroftLoop d k pw.1 pw.2

/-- dandy/src/dfa/mod.rs:617-669 `state_equivalence_classes_idx`. Sets are increasing lists. -/
def stateEquivalenceClassesIdx (d : Dfa) : Option (List (List Nat)) :=
  let finals := (List.range d.states.length).filter (fun i => (d.state i).accepting)
  let nonfinals := (List.range d.states.length).filter (fun i => !(d.state i).accepting)
  if finals = [] then some [nonfinals]
  else if nonfinals = [] then some [finals]
  else hopcroftLoop d (2 * d.states.length + 1) [finals, nonfinals] [finals, nonfinals]

/-- dandy/src/dfa/mod.rs:603-613 `state_equivalence_classes`. `ord`: iteration order of each set. -/
def stateEquivalenceClasses (ord : List Nat → List Nat) (d : Dfa) : Option (List (List DfaState)) :=
  d.stateEquivalenceClassesIdx.map (fun cs => cs.map (fun c => (ord c).map d.state))

/-- The pairs (old, representative) one class contributes to `mapper` (dandy/src/dfa/mod.rs:583-590).
`ord` is the iteration order of the class; its first element is kept. -/
def classPairs (ord : List Nat → List Nat) (c : List Nat) : List (Nat × Nat) :=
  match ord c with
  | [] => []
  | new :: rest => rest.map (fun old => (old, new))

/-- `self.states[i].initial = true`. dandy/src/dfa/mod.rs:596. -/
def setInitial (states : List DfaState) (i : Nat) : List DfaState :=
  states.modify i (fun s => { s with initial := true })

/-- dandy/src/dfa/mod.rs:579-600 `merge_nondistinguishable_states`. `ord` is the iteration order of each class,
`ordKeys` that of the keys of `mapper`. Keys of `mapper` are distinct, so lookups in the pair list are lookups in the
hash map. -/
def mergeNondistinguishableStates (ord ordKeys : List Nat → List Nat) (d : Dfa) : Option Dfa := do
  let classes ← d.stateEquivalenceClassesIdx
  let mapper := classes.flatMap (classPairs ord)
  let map := fun i => mapper.lookup i
  let d1 := d.remapTransitions map
  let d2 := match map d.initialState with
    | some newInitial => { d1 with initialState := newInitial, states := setInitial d1.states newInitial }
    | none => d1
  d2.removeStates (ordKeys (mapper.map (·.1)))

/-- dandy/src/dfa/mod.rs:572-575 `minimize`. -/
def minimize (ordU ord ordKeys : List Nat → List Nat) (d : Dfa) : Option Dfa := do
  let d' ← d.removeUnreachableStates ordU
  d'.mergeNondistinguishableStates ord ordKeys

end Dfa

/-- dandy/src/dfa/mod.rs:273-289 `From<DfaState> for NfaState`. -/
def DfaState.toNfaState (s : DfaState) : NfaState :=
  { name := s.name, initial := s.initial, accepting := s.accepting, epsilonTransitions := [],
    transitions := s.transitions.map (fun t => [t]) }

/-- dandy/src/dfa/mod.rs:772-784 `to_nfa` (also 291-295 `From<Dfa> for Nfa`). -/
def Dfa.toNfa (d : Dfa) : Nfa :=
  { alphabet := d.alphabet, states := d.states.map DfaState.toNfaState, initialState := d.initialState }

end Dandy
