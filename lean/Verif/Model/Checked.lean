import Verif.Model.Words
/-!
# The automata code with every panic made visible

In Verif/Model/Dfa.lean, Nfa.lean and Words.lean an access `v[i]` to a vector is a total function with a default, and `a - b` is the
subtraction of natural numbers, which stops at 0. Here the same functions are written again with `none` for every panic: an index out of
range, an unsigned subtraction below zero, `unwrap`/`expect` of nothing, and debug assertions. C105 says that none of them happens for valid
automata, and that the two models agree. Loops have the fuel of the other model; `none` is also returned if it runs out.
-/

namespace Dandy
namespace Checked

/-- `a - b` for `usize` (overflow checks on). For instance dandy/src/nfa/words.rs:154,
dandy/src/nfa/words.rs:179, dandy/src/nfa/words.rs:217 and dandy/src/dfa/mod.rs:748. -/
def usub (a b : Nat) : Option Nat := if b ≤ a then some (a - b) else none

/-- `explore` (Verif/Model/Basic.lean) with successors and a check that may panic.
dandy/src/dfa/mod.rs:467, dandy/src/dfa/mod.rs:907, dandy/src/nfa/mod.rs:502,
dandy/src/nfa/mod.rs:1245 and the loops after these lines. -/
def explore {σ κ : Type} [DecidableEq κ] (key : σ → κ) (succ : σ → Option (List σ)) (ok : σ → Option Bool) :
    Nat → List σ → List σ → List σ → Option (Option (List σ × List σ))
  | 0, _, _, _ => none
  | _ + 1, [], seen, out => some (some (out, seen))
  | k + 1, s :: stack, seen, out => do
    if ← ok s then
      let p := pushNew key (← succ s) (stack, seen)
      explore key succ ok k p.1 p.2 (out ++ [s])
    else some none

/-- The `map_while` of the name generation (dandy/src/dfa/mod.rs:496-507, dandy/src/nfa/mod.rs:604-616); making a name may panic. -/
def takeNames {κ : Type} (nameOf : κ → Option Str) : List κ → List Str → Option (List (κ × Str))
  | [], _ => some []
  | k :: ks, hm => do
    let s ← nameOf k
    if s ∈ hm then return [] else return (k, s) :: (← takeNames nameOf ks (s :: hm))

/-- Name generation for product constructions (dandy/src/dfa/mod.rs:495-517, dandy/src/nfa/mod.rs:603-626). -/
def genNames {κ : Type} (nameOf : κ → Option Str) (l : List κ) (count : Nat) : Option (List (κ × Str)) := do
  let pot ← takeNames nameOf l []
  if pot.length < count then return l.zipIdx.map (fun p => (p.1, numStr p.2)) else return pot

/-! ## dandy/src/dfa/eval.rs -/

namespace DfaEval
open Dandy (DfaEval)

/-- dandy/src/dfa/eval.rs:18-24 `current_state`. -/
def currentState (ev : DfaEval) : Option (Option DfaState) :=
  if ev.unknown then some none else do return some (← ev.dfa.states[ev.cur]?)

/-- dandy/src/dfa/eval.rs:14-16 `is_accepting`. -/
def isAccepting (ev : DfaEval) : Option Bool := do
  match ← currentState ev with
  | none => return false
  | some s => return s.accepting

/-- dandy/src/dfa/eval.rs:41-56 `step`. -/
def step (ev : DfaEval) (e : Str) : Option (DfaEval × Option DfaState) :=
  if ev.unknown then some (ev, none)
  else match revGet ev.dfa.alphabet e with
    | none => some ({ ev with unknown := true }, none)
    | some i => do
      let s ← ev.dfa.states[ev.cur]?
      let t ← s.transitions[i]?
      let s' ← ev.dfa.states[t]?
      return ({ ev with cur := t }, some s')

/-- The `try_for_each` of dandy/src/dfa/eval.rs:59. -/
def tryForEach : DfaEval → List Str → Option (DfaEval × Option Unit)
  | ev, [] => some (ev, some ())
  | ev, e :: es => do
    match ← step ev e with
    | (ev', none) => return (ev', none)
    | (ev', some _) => tryForEach ev' es

/-- dandy/src/dfa/eval.rs:58-66 `step_multiple`. -/
def stepMultiple (ev : DfaEval) (es : List Str) : Option (DfaEval × Option DfaState) := do
  match ← tryForEach ev es with
  | (ev', none) => return ({ ev' with unknown := true }, none)
  | (ev', some _) => return (ev', some (← ev'.dfa.states[ev'.cur]?))

/-- dandy/src/dfa/eval.rs:31-39 `step_all`. -/
def stepAll (ev : DfaEval) : Option (List DfaEval) := ev.dfa.alphabet.mapM (fun e => do return (← step ev e).1)

end DfaEval

/-! ## dandy/src/dfa/mod.rs -/

namespace Dfa
open Dandy (Dfa)
open Dandy.Dfa (pairKey pairFuel pairName splitAll)

/-- dandy/src/dfa/mod.rs:944-946 `initial_state`. -/
def initialState (d : Dfa) : Option DfaState := d.states[d.initialState]?

/-- dandy/src/dfa/mod.rs:788-792 `accepts`. -/
def accepts (d : Dfa) (w : List Str) : Option Bool := do
  DfaEval.isAccepting (← DfaEval.stepMultiple (Dandy.DfaEval.new d) w).1

/-- dandy/src/dfa/mod.rs:814-819 `accepts_graphemes`. -/
def acceptsGraphemes (seg : Str → List Str) (d : Dfa) (s : Str) : Option Bool := do
  DfaEval.isAccepting (← DfaEval.stepMultiple (Dandy.DfaEval.new d) (seg s)).1

/-- dandy/src/dfa/mod.rs:475-479 and 920-924. -/
def pairSucc (alphabet : List Str) (p : Dandy.DfaEval × Dandy.DfaEval) : Option (List (Dandy.DfaEval × Dandy.DfaEval)) :=
  alphabet.mapM (fun e => do return ((← DfaEval.step p.1 e).1, (← DfaEval.step p.2 e).1))

/-- dandy/src/dfa/mod.rs:452-552 `product_construction`. Inner `Option`: the returned value. -/
def product (ord : List (Nat × Nat) → List (Nat × Nat)) (d o : Dfa)
    (combinator : DfaState → DfaState → Bool) : Option (Option Dfa) :=
  if !alphabetEqual d.alphabet o.alphabet then some none
  else do
    let init := (Dandy.DfaEval.new d, Dandy.DfaEval.new o)
    let (out, seen) ← ← explore pairKey (pairSucc d.alphabet) (fun _ => some true) (pairFuel d o) [init] [init] []
    let q := (d.initialState, o.initialState)
    -- 487-491
    let stateData ← out.mapM (fun p => do
      let s1 ← ← DfaEval.currentState p.1
      let s2 ← ← DfaEval.currentState p.2
      return (pairKey p, combinator s1 s2, (← pairSucc d.alphabet p).map pairKey))
    -- 495-517
    let names ← genNames (fun k : Nat × Nat => do return pairName (← d.states[k.1]?).name (← o.states[k.2]?).name)
      (ord (seen.map pairKey)) stateData.length
    -- 519-526
    let idx := fun k => revGet (stateData.map (·.1)) k
    let initialState ← idx q
    -- 528-546
    let states ← stateData.mapM (fun sd => do
      let name ← names.lookup sd.1
      let tr ← sd.2.2.mapM idx
      return ({ name := name, initial := sd.1 == q, accepting := sd.2.1, transitions := tr } : DfaState))
    return some { alphabet := d.alphabet, states := states, initialState := initialState }

/-- dandy/src/dfa/mod.rs:899-931 `equivalent_to`. -/
def equivalentTo (d o : Dfa) : Option Bool :=
  if !alphabetEqual d.alphabet o.alphabet then some false
  else do
    let init := (Dandy.DfaEval.new d, Dandy.DfaEval.new o)
    return (← explore pairKey (pairSucc d.alphabet)
      (fun p => do return (← DfaEval.isAccepting p.1) == (← DfaEval.isAccepting p.2)) (pairFuel d o) [init] [init] []).isSome

/-- dandy/src/dfa/mod.rs:713-724 `reachable_state_idx`. -/
def reachableStateIdx (d : Dfa) : Option (List Nat) :=
  bfs (fun q => do return (← d.states[q]?).transitions) (d.states.length + 1) [d.initialState] [d.initialState]

/-- dandy/src/dfa/mod.rs:687-692 `unreachable_state_idx`. -/
def unreachableStateIdx (d : Dfa) : Option (List Nat) := do
  let r ← reachableStateIdx d
  return (List.range d.states.length).filter (· ∉ r)

/-- dandy/src/dfa/mod.rs:704-709 `reachable_states`. -/
def reachableStates (ord : List Nat → List Nat) (d : Dfa) : Option (List DfaState) := do
  (ord (← reachableStateIdx d)).mapM (fun i => d.states[i]?)

/-- dandy/src/dfa/mod.rs:678-683 `unreachable_states`. -/
def unreachableStates (ord : List Nat → List Nat) (d : Dfa) : Option (List DfaState) := do
  (ord (← unreachableStateIdx d)).mapM (fun i => d.states[i]?)

/-- dandy/src/dfa/mod.rs:696-701 `has_reachable_accepting_state`. All states are looked at, in any order, also those after the first accepting
one. -/
def hasReachableAcceptingState (d : Dfa) : Option Bool := do
  return (← (← reachableStateIdx d).mapM (fun i => do return (← d.states[i]?).accepting)).any id

/-- dandy/src/dfa/mod.rs:742-767 `remove_states` (debug build). -/
def removeStates (d : Dfa) (toRemove : List Nat) : Option Dfa := do
  let rm := toRemove.insertionSort (· ≤ ·)
  let initialState ← match binarySearch rm d.initialState with
    | .error lessThan => usub d.initialState lessThan
    | .ok _ => none
  let states ← vecRemoveAll rm.reverse d.states
  let old ← vecRemoveAll rm.reverse (List.range d.states.length)
  let states ← states.mapM (fun s => do
    let tr ← s.transitions.mapM (fun t => (binarySearch old t).toOption)
    return { s with transitions := tr })
  return { d with states := states, initialState := initialState }

/-- dandy/src/dfa/mod.rs:672-675 `remove_unreachable_states`. -/
def removeUnreachableStates (ord : List Nat → List Nat) (d : Dfa) : Option Dfa := do
  removeStates d (ord (← unreachableStateIdx d))

/-- dandy/src/dfa/mod.rs:631-637. -/
def preImage (d : Dfa) (a : List Nat) (c : Nat) : Option (List Nat) := do
  let bs ← d.states.zipIdx.mapM (fun p => do return (p.2, decide ((← p.1.transitions[c]?) ∈ a)))
  return (bs.filter (·.2)).map (·.1)

/-- dandy/src/dfa/mod.rs:630-666. -/
def hopcroftSymbols (d : Dfa) (a : List Nat) :
    List Nat → List (List Nat) × List (List Nat) → Option (List (List Nat) × List (List Nat))
  | [], pw => some pw
  | c :: cs, pw => do hopcroftSymbols d a cs (splitAll (← preImage d a c) pw.1 pw.2)

/-- dandy/src/dfa/mod.rs:629-667. -/
def hopcroftLoop (d : Dfa) : Nat → List (List Nat) → List (List Nat) → Option (List (List Nat))
  | 0, _, _ => none
  | k + 1, p, w =>
    match w.getLast? with
    | none => some p
    | some a => do
      let pw ← hopcroftSymbols d a (List.range d.alphabet.length) (p, w.dropLast)
      hopcroftLoop d k pw.1 pw.2

/-- dandy/src/dfa/mod.rs:617-669 `state_equivalence_classes_idx`. -/
def stateEquivalenceClassesIdx (d : Dfa) : Option (List (List Nat)) := do
  let bs ← (List.range d.states.length).mapM (fun i => do return (i, (← d.states[i]?).accepting))
  let finals := (bs.filter (·.2)).map (·.1)
  let nonfinals := (bs.filter (fun b => !b.2)).map (·.1)
  if finals = [] then return [nonfinals]
  else if nonfinals = [] then return [finals]
  else hopcroftLoop d (2 * d.states.length + 1) [finals, nonfinals] [finals, nonfinals]

/-- dandy/src/dfa/mod.rs:603-613 `state_equivalence_classes`. -/
def stateEquivalenceClasses (ord : List Nat → List Nat) (d : Dfa) : Option (List (List DfaState)) := do
  (← stateEquivalenceClassesIdx d).mapM (fun c => (ord c).mapM (fun i => d.states[i]?))

/-- dandy/src/dfa/mod.rs:583-590 with the debug assertion of line 584. -/
def classPairs (ord : List Nat → List Nat) (c : List Nat) : Option (List (Nat × Nat)) :=
  match ord c with
  | [] => none
  | new :: rest => some (rest.map (fun old => (old, new)))

/-- dandy/src/dfa/mod.rs:579-600 `merge_nondistinguishable_states`. -/
def mergeNondistinguishableStates (ord ordKeys : List Nat → List Nat) (d : Dfa) : Option Dfa := do
  let classes ← stateEquivalenceClassesIdx d
  let mapper := (← classes.mapM (classPairs ord)).flatten
  let d1 := d.remapTransitions (fun i => mapper.lookup i)
  let d2 ← match mapper.lookup d.initialState with
    | some newInitial => do
      let s ← d1.states[newInitial]?
      some { d1 with initialState := newInitial, states := d1.states.set newInitial { s with initial := true } }
    | none => some d1
  removeStates d2 (ordKeys (mapper.map (·.1)))

/-- dandy/src/dfa/mod.rs:572-575 `minimize`. -/
def minimize (ordU ord ordKeys : List Nat → List Nat) (d : Dfa) : Option Dfa := do
  mergeNondistinguishableStates ord ordKeys (← removeUnreachableStates ordU d)

end Dfa

/-! ## dandy/src/nfa/eval.rs -/

/-- `for state in set { … self.nfa.states[*state].epsilon_transitions … }` (dandy/src/nfa/eval.rs:78-85). -/
def closureRound (n : Nfa) (cur : List Nat) : Option (List Nat) := do
  let ls ← cur.mapM (fun s => do return (← n.states[s]?).epsilonTransitions)
  return ls.flatten.filter (· ∉ cur)

/-- dandy/src/nfa/eval.rs:73-88 `include_closure`. -/
def includeClosure (n : Nfa) : Nat → List Nat → Option (List Nat)
  | 0, cur => some cur
  | k + 1, cur => do
    let toPush ← closureRound n cur
    if toPush = [] then return cur else includeClosure n k (sextend cur toPush)

namespace NfaEval
open Dandy (NfaEval)

/-- dandy/src/nfa/eval.rs:91-109 `From<&Nfa>`. -/
def new (n : Nfa) : Option NfaEval := do return ⟨n, ← includeClosure n (n.states.length + 1) [n.initialState], false⟩

/-- dandy/src/nfa/eval.rs:23-28 `current_states`. -/
def currentStates (ord : List Nat → List Nat) (ev : NfaEval) : Option (List NfaState) := (ord ev.cur).mapM (fun s => ev.nfa.states[s]?)

/-- dandy/src/nfa/eval.rs:15-21 `is_accepting`. -/
def isAccepting (ev : NfaEval) : Option Bool :=
  if ev.unknown then some false else do return (← currentStates id ev).any (·.accepting)

/-- dandy/src/nfa/eval.rs:44-61 `step`. -/
def step (ev : NfaEval) (e : Str) : Option (NfaEval × Option Unit) :=
  match revGet ev.nfa.alphabet e with
  | none => some ({ ev with unknown := true }, none)
  | some i => do
    let ls ← ev.cur.mapM (fun s => do (← ev.nfa.states[s]?).transitions[i]?)
    let cur ← includeClosure ev.nfa (ev.nfa.states.length + 1) (sofList ls.flatten)
    return ({ ev with cur := cur }, some ())

/-- The `try_for_each` of dandy/src/nfa/eval.rs:64. -/
def tryForEach : NfaEval → List Str → Option (NfaEval × Option Unit)
  | ev, [] => some (ev, some ())
  | ev, e :: es => do
    match ← step ev e with
    | (ev', none) => return (ev', none)
    | (ev', some _) => tryForEach ev' es

/-- dandy/src/nfa/eval.rs:63-71 `step_multiple`. -/
def stepMultiple (ev : NfaEval) (es : List Str) : Option (NfaEval × Option Unit) := do
  match ← tryForEach ev es with
  | (ev', none) => return ({ ev' with unknown := true }, none)
  | (ev', some _) => return (ev', some ())

/-- dandy/src/nfa/eval.rs:34-42 `step_all`. -/
def stepAll (ev : NfaEval) : Option (List NfaEval) := ev.nfa.alphabet.mapM (fun e => do return (← step ev e).1)

end NfaEval

/-! ## dandy/src/nfa/mod.rs -/

namespace Nfa
open Dandy (Nfa)
open Dandy.Nfa (OPair alphabetTranslation isIncreasing reorderRow freshName sNew noneName deadLoop)

/-- dandy/src/nfa/mod.rs:1292-1294 `initial_state`. -/
def initialState (n : Nfa) : Option NfaState := n.states[n.initialState]?

/-- dandy/src/nfa/mod.rs:1126-1130 `accepts`. -/
def accepts (n : Nfa) (w : List Str) : Option Bool := do
  NfaEval.isAccepting (← NfaEval.stepMultiple (← NfaEval.new n) w).1

/-- dandy/src/nfa/mod.rs:1137-1142 `accepts_graphemes`. -/
def acceptsGraphemes (seg : Str → List Str) (n : Nfa) (s : Str) : Option Bool := do
  NfaEval.isAccepting (← NfaEval.stepMultiple (← NfaEval.new n) (seg s)).1

/-- dandy/src/nfa/mod.rs:1166-1184 `closure`. Inner `Option`: the returned value. -/
def closure (n : Nfa) (start : Nat) : Option (Option (List Nat)) :=
  if start ≥ n.states.length then some none
  else do return some (← bfs (fun q => do return (← n.states[q]?).epsilonTransitions) (n.states.length + 1) [start] [start])

/-- dandy/src/nfa/mod.rs:992-1011 `reachable_state_idx`. -/
def reachableStateIdx (n : Nfa) : Option (List Nat) :=
  bfs (fun q => do return (← n.states[q]?).transitions.flatten ++ (← ← closure n q)) (n.states.length + 1) [n.initialState] [n.initialState]

/-- dandy/src/nfa/mod.rs:966-971 `unreachable_state_idx`. -/
def unreachableStateIdx (n : Nfa) : Option (List Nat) := do
  let r ← reachableStateIdx n
  return (List.range n.states.length).filter (· ∉ r)

/-- dandy/src/nfa/mod.rs:983-988 `reachable_states`. -/
def reachableStates (ord : List Nat → List Nat) (n : Nfa) : Option (List NfaState) := do
  (ord (← reachableStateIdx n)).mapM (fun i => n.states[i]?)

/-- dandy/src/nfa/mod.rs:957-962 `unreachable_states`. -/
def unreachableStates (ord : List Nat → List Nat) (n : Nfa) : Option (List NfaState) := do
  (ord (← unreachableStateIdx n)).mapM (fun i => n.states[i]?)

/-- dandy/src/nfa/mod.rs:975-980 `has_reachable_accepting_state` (all states are looked at). -/
def hasReachableAcceptingState (n : Nfa) : Option Bool := do
  return (← (← reachableStateIdx n).mapM (fun i => do return (← n.states[i]?).accepting)).any id

/-- dandy/src/nfa/mod.rs:895-920 `remove_states` (debug build). -/
def removeStates (n : Nfa) (toRemove : List Nat) : Option Nfa := do
  let rm := toRemove.insertionSort (· ≤ ·)
  let initialState ← match binarySearch rm n.initialState with
    | .error lessThan => usub n.initialState lessThan
    | .ok _ => none
  let states ← vecRemoveAll rm.reverse n.states
  let old ← vecRemoveAll rm.reverse (List.range n.states.length)
  let find := fun t => (binarySearch old t).toOption
  let states ← states.mapM (fun s => do
    let tr ← s.transitions.mapM (fun ts => ts.mapM find)
    let eps ← s.epsilonTransitions.mapM find
    return { s with transitions := tr, epsilonTransitions := eps })
  return { n with states := states, initialState := initialState }

/-- dandy/src/nfa/mod.rs:951-954 `remove_unreachable_states`. -/
def removeUnreachableStates (ord : List Nat → List Nat) (n : Nfa) : Option Nfa := do
  removeStates n (ord (← unreachableStateIdx n))

/-- `self.states[i].initial = false`. dandy/src/nfa/mod.rs:411-412, dandy/src/nfa/mod.rs:817,
dandy/src/nfa/mod.rs:872. -/
def clearInitial (states : List NfaState) (i : Nat) : Option (List NfaState) := do
  return states.set i { ← states[i]? with initial := false }

/-- dandy/src/nfa/mod.rs:345-416 `union`. -/
def union (n o : Nfa) : Option (Except (Nfa × Nfa) Nfa) :=
  if !alphabetEqual n.alphabet o.alphabet then some (.error (n, o))
  else do
    let translation ← alphabetTranslation o.alphabet n.alphabet
    let o := if isIncreasing translation then o
      else { o with states := o.states.map (fun s => { s with transitions := reorderRow translation s.transitions }) }
    let aStates := n.states.length
    let o := o.remapTransitions (fun b => some (b + aStates))
    let bInit := o.initialState + aStates
    let states := n.states ++ o.states
    let states := if (states.map (·.name)).dedup.length ≠ states.length
      then states.zipIdx.map (fun p => { p.1 with name := numStr (p.2 + 1) })
      else states
    let newInitial : NfaState :=
      { name := freshName (states.map (·.name)) sNew, initial := true, accepting := false,
        epsilonTransitions := [n.initialState, bInit], transitions := List.replicate n.alphabet.length [] }
    -- 411-412
    let states ← clearInitial states n.initialState
    let states ← clearInitial states bInit
    return .ok { alphabet := n.alphabet, states := states ++ [newInitial], initialState := states.length }

/-- dandy/src/nfa/mod.rs:520-530: the entry of the table is read (also for the capacity of the vector); `some none`: no state, or an
empty entry. -/
def liveTargets (n : Nfa) (s : Option Nat) (elem : Nat) : Option (Option (List Nat)) :=
  match s with
  | none => some none
  | some q => do
    let ts ← (← n.states[q]?).transitions[elem]?
    return if ts = [] then none else some ts

/-- dandy/src/nfa/mod.rs:517-566. -/
def pairTargets (n o : Nfa) (elem otherElem : Nat) (p : OPair) : Option (List OPair) := do
  match ← liveTargets n p.1 elem, ← liveTargets o p.2 otherElem with
  | some l1, some l2 => return l1.flatMap (fun t1 => l2.map (fun t2 => (some t1, some t2)))
  | some l1, none => return l1.map (fun t1 => (some t1, none))
  | none, some l2 => return l2.map (fun t2 => (none, some t2))
  | none, none => return []

/-- dandy/src/nfa/mod.rs:516-569 `transition_list`. -/
def pairRow (n o : Nfa) (translation : List Nat) (p : OPair) : Option (List (List OPair)) :=
  (List.range n.alphabet.length).mapM (fun elem => do pairTargets n o elem (← translation[elem]?) p)

/-- dandy/src/nfa/mod.rs:511-514, 571-589 `eps_transitions`. -/
def pairEps (n o : Nfa) (p : OPair) : Option (List OPair) := do
  let l1 ← match p.1 with
    | some s1 => (n.states[s1]?).map (fun s => s.epsilonTransitions.map (fun t => (some t, p.2)))
    | none => some []
  let l2 ← match p.2 with
    | some s2 => (o.states[s2]?).map (fun s => s.epsilonTransitions.map (fun t => (p.1, some t)))
    | none => some []
  return l1 ++ l2

/-- `s1.map(|s1| &self.states[s1])` (dandy/src/nfa/mod.rs:594-595, 610-611). -/
def stateOf (n : Nfa) : Option Nat → Option (Option NfaState)
  | none => some none
  | some q => do return some (← n.states[q]?)

/-- dandy/src/nfa/mod.rs:475-676 `product_construction`. -/
def product (ord : List OPair → List OPair) (n o : Nfa)
    (combinator : Option NfaState → Option NfaState → Bool) : Option (Option Nfa) :=
  if !alphabetEqual n.alphabet o.alphabet then some none
  else do
    let translation ← alphabetTranslation n.alphabet o.alphabet
    let q : OPair := (some n.initialState, some o.initialState)
    let succ := fun p => do return (← pairRow n o translation p).flatten ++ (← pairEps n o p)
    let r ← explore id succ (fun _ => some true) ((n.states.length + 1) * (o.states.length + 1) + 1) [q] [q] []
    let os ← r
    -- 591-599
    let stateData ← os.1.mapM (fun p => do
      return (p, combinator (← stateOf n p.1) (← stateOf o p.2), ← pairRow n o translation p, ← pairEps n o p))
    -- 602-626
    let names ← genNames (fun p : OPair => do
        return Dandy.Dfa.pairName (((← stateOf n p.1).map (·.name)).getD noneName) (((← stateOf o p.2).map (·.name)).getD noneName))
      (ord os.2) stateData.length
    -- 628-635
    let idx := fun p => revGet (stateData.map (·.1)) p
    let initialState ← idx q
    -- 637-670
    let states ← stateData.mapM (fun sd => do
      let name ← names.lookup sd.1
      let tr ← sd.2.2.1.mapM (fun l => l.mapM idx)
      let eps ← sd.2.2.2.mapM idx
      return ({ name := name, initial := sd.1 == q, accepting := sd.2.1, transitions := tr,
                epsilonTransitions := eps } : NfaState))
    return some { alphabet := n.alphabet, states := states, initialState := initialState }

/-- dandy/src/nfa/mod.rs:756-887 `remove_epsilon_moves`. -/
def removeEpsilonMoves (ordT : Nat → Nat → List Nat → List Nat) (ordDead : List Nat → List Nat) (n : Nfa) : Option Nfa :=
  if !n.hasEpsilonMoves then some n
  else do
    -- 762-764
    let closures := (← (List.range n.states.length).mapM (closure n)).filterMap id
    -- 767-780
    let states1 ← n.states.zipIdx.mapM (fun p => do
      let tr ← p.1.transitions.zipIdx.mapM (fun q => do
        return ordT p.2 q.2 ((← q.1.mapM (fun t => closures[t]?)).foldl sextend []))
      return { p.1 with transitions := tr, epsilonTransitions := [] })
    -- 784-802
    let dead ← deadLoop states1 (n.states.length + 1) []
    -- 806-810
    let initClosure := (← closures[n.initialState]?).filter (· ∉ dead)
    -- 811-875
    let (states3, dead, initialState) ←
      if initClosure.length > 1 then do
        let oldInitial := n.initialState
        let states2 ← clearInitial states1 oldInitial
        let old ← states2[oldInitial]?
        let oldStateDead := !old.accepting && old.transitions.all (fun ts => ts.all (· ∈ dead))
        let dead ← if oldStateDead then deadLoop states2 (n.states.length + 1) (sins oldInitial dead) else some dead
        let name := if oldStateDead then old.name else freshName (states2.map (·.name)) sNew
        let transitions ← (List.range n.alphabet.length).mapM (fun c => do
          let ls ← initClosure.mapM (fun s => do (← states2[s]?).transitions[c]?)
          return (ordT n.states.length c (ls.foldl sextend [])).filter (· ∉ dead))
        let newState : NfaState :=
          { name := name, initial := true,
            accepting := (← initClosure.mapM (fun i => do return (← states2[i]?).accepting)).any id,
            epsilonTransitions := [], transitions := transitions }
        some (states2 ++ [newState], dead, states2.length)
      else some (states1, dead, n.initialState)
    -- 878-883
    let states4 := states3.map (fun s => { s with transitions := s.transitions.map (fun ts => ts.filter (· ∉ dead)) })
    -- 886
    removeStates { n with states := states4, initialState := initialState } (ordDead dead)

/-- dandy/src/nfa/mod.rs:681-684 `optimize`. -/
def optimize (ordU : List Nat → List Nat) (ordT : Nat → Nat → List Nat → List Nat) (ordDead : List Nat → List Nat)
    (n : Nfa) : Option Nfa := do
  removeEpsilonMoves ordT ordDead (← removeUnreachableStates ordU n)

/-- dandy/src/nfa/mod.rs:1057-1122 `to_dfa`. -/
def toDfa (n : Nfa) : Option Dfa := do
  let init ← NfaEval.new n
  let r ← explore Dandy.NfaEval.currentStatesIdx NfaEval.stepAll (fun _ => some true) (2 ^ n.states.length + 1) [init] [init] []
  let os ← r
  let keys := os.2.map Dandy.NfaEval.currentStatesIdx
  let transitions ← os.1.mapM (fun ev => do
    let tr ← (← NfaEval.stepAll ev).mapM (fun ev' => keys.findIdx? (· == ev'.currentStatesIdx))
    return (ev.currentStatesIdx, tr))
  let states ← os.2.zipIdx.mapM (fun p => do
    let tr ← transitions.lookup p.1.currentStatesIdx
    return ({ name := numStr p.2, initial := p.2 == 0, accepting := ← NfaEval.isAccepting p.1, transitions := tr } : DfaState))
  return { alphabet := n.alphabet, states := states, initialState := 0 }

/-- dandy/src/nfa/mod.rs:1258-1262. -/
def pairSucc (alphabet : List Str) (p : Dandy.NfaEval × Dandy.NfaEval) : Option (List (Dandy.NfaEval × Dandy.NfaEval)) :=
  alphabet.mapM (fun e => do return ((← NfaEval.step p.1 e).1, (← NfaEval.step p.2 e).1))

/-- dandy/src/nfa/mod.rs:1237-1272 `equivalent_to`. -/
def equivalentTo (n o : Nfa) : Option Bool :=
  if !alphabetEqual n.alphabet o.alphabet then some false
  else do
    let init := (← NfaEval.new n, ← NfaEval.new o)
    return (← explore Dandy.Nfa.pairKey (pairSucc n.alphabet)
      (fun p => do return (← NfaEval.isAccepting p.1) == (← NfaEval.isAccepting p.2))
      (2 ^ (n.states.length + o.states.length) + 1) [init] [init] []).isSome

end Nfa

/-! ## dandy/src/nfa/words.rs -/

/-- `matrix[(i, j)]` of nalgebra: panics if an index is out of range. dandy/src/nfa/words.rs:224. -/
def matGet (m : BMat) (i j : Nat) : Option Bool := do (← m[i]?)[j]?

/-- nalgebra's product `a * b` of a matrix with `n` rows: panics if an entry that is needed is missing (in nalgebra: if the dimensions do not
fit). The products of matrices of dandy/src/nfa/words.rs:280-290. -/
def matMul (n : Nat) (a b : BMat) : Option BMat :=
  (List.range n).mapM (fun i => (List.range n).mapM (fun j =>
    (List.range n).foldlM (fun acc k => do return numAdd acc (numMul (← matGet a i k) (← matGet b k j))) false))

namespace WordIter
open Dandy (WordIter)
open Dandy.WordIter (identity)

/-- dandy/src/nfa/words.rs:245-267 `is_reachable_in_one_step`. -/
def reachableInOneStep (n : Nfa) (start dest : Nat) (eps : Bool) : Option Bool :=
  if eps then do
    let cl ← ← Nfa.closure n start
    let bs ← cl.mapM (fun mid => do (← n.states[mid]?).transitions.flatten.mapM (fun d => do
      let c ← ← Nfa.closure n d
      return decide (dest ∈ c)))
    return bs.any (fun l => l.any id)
  else do return (← n.states[start]?).transitions.any (fun onSymbol => onSymbol.contains dest)

/-- dandy/src/nfa/words.rs:280-286 `generate_adjacency_matrix`. -/
def adjacency (n : Nfa) : Option BMat :=
  (List.range n.states.length).mapM (fun start => (List.range n.states.length).mapM (fun dest => reachableInOneStep n start dest n.hasEpsilonMoves))

/-- dandy/src/nfa/words.rs:292-315 `new`; line 301 is the `unimplemented!`. -/
def new (n : Nfa) : Option WordIter :=
  if n.hasEpsilonMoves then none
  else do
    return {
      nfa := n
      adj := [identity n.states.length, ← adjacency n]
      finals := (n.states.zipIdx.filter (fun p => p.1.accepting)).map (·.2)
      stack := []
      failed := false
      last := none }

/-- dandy/src/nfa/words.rs:269-274 `generate_matrices_up_to`. -/
def generateUpTo (n : Nat) (adj : List BMat) (k : Nat) : Option (List BMat) :=
  (List.range (k + 1 - adj.length)).foldlM (fun adj _ => do return adj ++ [← matMul n (← adj[1]?) (← adj.getLast?)]) adj

/-- `states[u].transitions[elem]`. dandy/src/nfa/words.rs:222. -/
def targets (n : Nfa) (elem u : Nat) : Option (List Nat) := do (← n.states[u]?).transitions[elem]?

/-- Lines 220-226 of dandy/src/nfa/words.rs for one element (all entries are looked at).
dandy/src/nfa/words.rs:220-226. -/
def canContinue (it : WordIter) (matrix : BMat) (top : List Nat) (elem : Nat) : Option Bool := do
  let bs ← top.mapM (fun u => it.finals.mapM (fun f => do
    let ts ← targets it.nfa elem u
    let cs ← ts.mapM (fun v => matGet matrix v f)
    return cs.any id))
  return bs.any (fun l => l.any id)

/-- `.find(…)` with a condition that may panic. dandy/src/nfa/words.rs:218-219. -/
def findM (p : Nat → Option Bool) : List Nat → Option (Option Nat)
  | [] => some none
  | x :: l => do if ← p x then return some x else findM p l

/-- The `retain` of dandy/src/nfa/words.rs:236. -/
def retain (it : WordIter) (matrix : BMat) (l : List Nat) : Option (List Nat) := do
  let bs ← l.mapM (fun v => do return (v, (← it.finals.mapM (fun f => matGet matrix v f)).any id))
  return (bs.filter (·.2)).map (·.1)

/-- The loop of `min_word` (dandy/src/nfa/words.rs:216-240); `n - i - 1` and `n - 1` are computed with checked subtraction. -/
def minLoop (it : WordIter) (n : Nat) : Nat → Nat → List Nat → List (List Nat) → Option (List Nat × List (List Nat))
  | 0, _, _, stack => some ([], stack)
  | m + 1, i, top, stack => do
    let matrix ← it.adj[← usub (← usub n i) 1]?
    let elem ← ← findM (canContinue it matrix top) (List.range it.nfa.alphabet.length)
    if i = (← usub n 1) then return ([elem], stack)
    else
      let newS ← retain it matrix ((← top.mapM (targets it.nfa elem)).foldl sextend [])
      let (w, stack) ← minLoop it n m (i + 1) newS (newS :: stack)
      return (elem :: w, stack)

/-- dandy/src/nfa/words.rs:198-243 `min_word`. -/
def minWord (it : WordIter) (n : Nat) : Option (WordIter × Option (List Nat)) := do
  let it := { it with adj := ← generateUpTo it.nfa.states.length it.adj n }
  let top ← it.stack.head?
  let matrix ← it.adj[n]?
  let bs ← top.mapM (fun a => it.finals.mapM (fun b => matGet matrix a b))
  if bs.all (fun l => l.all (· == false)) then return (it, none)
  else
    let (w, stack) ← minLoop it n n 0 top it.stack
    return ({ it with stack := stack }, some w)

/-- `flat_map(|i| nfa.states[i].transitions.iter().flatten())` (dandy/src/nfa/words.rs:141, 152). -/
def allTargets (n : Nfa) (s : List Nat) : Option (List Nat) := do
  return (← s.mapM (fun i => do return (← n.states[i]?).transitions.flatten)).flatten

/-- `n_complete` (dandy/src/nfa/words.rs:135-146). -/
def nComplete (n : Nfa) (k start : Nat) : Option Bool := do
  let s ← (List.range k).foldlM (fun s _ => do return sofList (← allTargets n s)) [start]
  return (← s.mapM (fun idx => do return (← n.states[idx]?).accepting)).any id

/-- `.filter(|v| n_complete(word.len() - i, *v))`. dandy/src/nfa/words.rs:154,
dandy/src/nfa/words.rs:178. -/
def keepComplete (n : Nfa) (len i : Nat) (l : List Nat) : Option (List Nat) := do
  let bs ← l.mapM (fun v => do return (v, ← nComplete n (← usub len i) v))
  return (bs.filter (·.2)).map (·.1)

/-- `r` (dandy/src/nfa/words.rs:150-155). -/
def nextR (n : Nfa) (cur : List Nat) (len i : Nat) : Option (List Nat) := do
  return sofList (← keepComplete n len i (← allTargets n cur))

/-- `flat_map(|u| nfa.states[*u].transitions[idx].iter())` (dandy/src/nfa/words.rs:162, 176). -/
def targetsOf (n : Nfa) (elem : Nat) (cur : List Nat) : Option (List Nat) := do return (← cur.mapM (targets n elem)).flatten

/-- `a` (dandy/src/nfa/words.rs:158-167). -/
def nextA (n : Nfa) (cur : List Nat) (len i : Nat) : Option (List Nat) := do
  let r ← nextR n cur len i
  let bs ← (List.range n.alphabet.length).mapM (fun idx => do
    let lhs := sofList (← targetsOf n idx cur)
    return (idx, decide ((lhs.filter (· ∈ r)).length > 0)))
  return (bs.filter (·.2)).map (·.1)

/-- The loop of `next_word` (dandy/src/nfa/words.rs:148-194). -/
def nextLoop (word : List Nat) : Nat → WordIter → Option (WordIter × Option (List Nat))
  | 0, it => some (it, none)
  | i + 1, it => do
    let cur ← it.stack.head?
    let a ← nextA it.nfa cur word.length (i + 1)
    let x ← word[← usub (i + 1) 1]?
    if a.all (· ≤ x) then nextLoop word i { it with stack := it.stack.tail }
    else
      let b ← a.find? (fun a => decide (a > x))
      let s := sofList (← keepComplete it.nfa word.length (i + 1) (← targetsOf it.nfa b cur))
      let w := word.take (← usub (i + 1) 1) ++ [b]
      if i + 1 ≠ word.length then
        let (it, rest) ← minWord { it with stack := s :: it.stack } (← usub word.length (i + 1))
        let rest ← rest
        return (it, some (w ++ rest))
      else return (it, some w)

/-- dandy/src/nfa/words.rs:129-195 `next_word`. -/
def nextWord (it : WordIter) (word : List Nat) : Option (WordIter × Option (List Nat)) := nextLoop word word.length it

/-- The loop of dandy/src/nfa/words.rs:110-126. -/
def cecLoop : Nat → Nat → WordIter → Option WordIter
  | 0, _, it => some { it with last := none, failed := true }
  | c + 1, len, it => do
    let (it, r) ← minWord { it with stack := [[it.nfa.initialState]] } len
    match r with
    | none => cecLoop c (len + 1) it
    | some w => return { it with last := some w }

/-- dandy/src/nfa/words.rs:94-127 `put_next`. -/
def putNext (it : WordIter) : Option WordIter :=
  if it.failed then some it
  else match it.last with
    | none => cecLoop it.nfa.states.length 0 it
    | some last => do
      let (it, r) ← nextWord it last
      match r with
      | some new => return { it with last := some new }
      | none => cecLoop it.nfa.states.length (last.length + 1) it

/-- dandy/src/nfa/words.rs:83-90 `next` of `WordComponentIndices`. -/
def next (it : WordIter) : Option (WordIter × Option (List Nat)) := do
  let it ← putNext it
  return (it, it.last)

/-- dandy/src/nfa/words.rs:50-58 `next` of `WordComponents`. -/
def nextComponents (it : WordIter) : Option (WordIter × Option (List Str)) := do
  let it ← putNext it
  match it.last with
  | none => return (it, none)
  | some w => return (it, some (← w.mapM (fun c => it.nfa.alphabet[c]?)))

/-- dandy/src/nfa/words.rs:19-30 `next` of `Words`. -/
def nextString (it : WordIter) : Option (WordIter × Option Str) := do
  let it ← putNext it
  match it.last with
  | none => return (it, none)
  | some w => return (it, some (← w.foldlM (fun s c => do return s ++ (← it.nfa.alphabet[c]?)) []))

end WordIter

namespace Nfa
open Dandy (Nfa)

/-- The first `k` items of `nfa.word_component_indices()` (dandy/src/nfa/mod.rs:1048-1050). -/
def wordComponentIndices (n : Nfa) (k : Nat) : Option (List (Option (List Nat))) := do
  Dandy.WordIter.calls WordIter.next k (← WordIter.new n)

/-- The first `k` items of `nfa.word_components()` (dandy/src/nfa/mod.rs:1035-1037). -/
def wordComponents (n : Nfa) (k : Nat) : Option (List (Option (List Str))) := do
  Dandy.WordIter.calls WordIter.nextComponents k (← WordIter.new n)

/-- The first `k` items of `nfa.words()` (dandy/src/nfa/mod.rs:1022-1024). -/
def words (n : Nfa) (k : Nat) : Option (List (Option Str)) := do
  Dandy.WordIter.calls WordIter.nextString k (← WordIter.new n)

end Nfa

end Checked
end Dandy
