import Verif.Model.Dfa
/-!
# The work done by the algorithms on DFAs (dandy/src/dfa/mod.rs)

How much the functions of `Verif.Model.Dfa` do, counted in elementary steps: one for every item that a loop or an iterator adaptor handles, for
every element that is copied or moved, for every element of a set that is compared, plus one for every call and for every round of a loop.
Inserting a number or a pair of numbers into a hash set and looking it up count as one step, as does making a name (simplification). Sorting `r`
items counts as `r * (1 + log2 r)`, a binary search in `r` items as `1 + log2 r`. Searches that may stop early are counted as if they never did, so the
numbers are upper bounds; but a part that is not reached is not counted, and the control flow is that of the model.
-/

namespace Dandy

/-- The rounds of `explore`, the `while let Some(..) = stack.pop()` loops (dandy/src/dfa/mod.rs:473-492, 913-929): `test` is the work before the
early return, `work` the work after it. -/
def exploreCost {σ κ : Type} [DecidableEq κ] (key : σ → κ) (succ : σ → List σ) (ok : σ → Bool) (test work : σ → Nat) :
    Nat → List σ → List σ → Nat
  | 0, _, _ => 0
  | _ + 1, [], _ => 1
  | k + 1, s :: stack, seen =>
    1 + test s + if ok s then work s + (let p := pushNew key (succ s) (stack, seen); exploreCost key succ ok test work k p.1 p.2) else 0

/-- The rounds of `bfs`, the level-wise search (dandy/src/dfa/mod.rs:716-722): `work q` is the work of computing the successors of `q`; every successor
is inserted. -/
def bfsCost (succ : Nat → Option (List Nat)) (work : Nat → Nat) : Nat → List Nat → List Nat → Nat
  | 0, _, _ => 0
  | k + 1, all, new =>
    1 + if new = [] then 0
    else (new.map work).sum + match new.mapM succ with
      | none => 0
      | some ls => ls.flatten.length + (let p := addNew ls.flatten (all, []); bfsCost succ work k p.1 p.2)

/-- Work of `alphabet_equal` (dandy/src/util.rs:5-13): two sets are made and compared. -/
def alphabetEqualCost (a b : List Str) : Nat := 1 + if a.length ≠ b.length then 0 else 2 * (a.length + b.length)

/-- Work of sorting. Called at dandy/src/dfa/mod.rs:745, dandy/src/nfa/mod.rs:898,
dandy/src/nfa/mod.rs:1101, dandy/src/nfa/mod.rs:1277. -/
def sortCost (r : Nat) : Nat := r * (1 + Nat.log2 r)

/-- Work of a binary search (dandy/src/dfa/mod.rs:746, 759). -/
def searchCost (r : Nat) : Nat := 1 + Nat.log2 r

namespace Dfa

/-- Work of making or cloning an evaluator (dandy/src/dfa/eval.rs:5-11, 69-84): it contains a map of the alphabet. -/
def evaluatorCost (d : Dfa) : Nat := 1 + d.alphabet.length

/-- Work for one pair of evaluators (dandy/src/dfa/mod.rs:474-485, 920-928): for every element two clones, two steps and an insertion. -/
def pairWork (d o : Dfa) : Nat := d.alphabet.length * (d.evaluatorCost + o.evaluatorCost + 3)

/-- Work of `equivalent_to` (dandy/src/dfa/mod.rs:899-931). -/
def equivalentCost (d o : Dfa) : Nat :=
  1 + alphabetEqualCost d.alphabet o.alphabet +
  if !alphabetEqual d.alphabet o.alphabet then 0
  else
    let init := (DfaEval.new d, DfaEval.new o)
    d.evaluatorCost + o.evaluatorCost +
    exploreCost pairKey (pairSucc d.alphabet) (fun p => p.1.isAccepting == p.2.isAccepting) (fun _ => 1) (fun _ => pairWork d o)
      (pairFuel d o) [init] [init]

/-- Work of `product_construction` (dandy/src/dfa/mod.rs:452-552), a call of the combinator being one step: the exploration, the names (made twice at
most), the numbers of the states, and the states with their transitions. -/
def productCost (d o : Dfa) : Nat :=
  1 + alphabetEqualCost d.alphabet o.alphabet +
  if !alphabetEqual d.alphabet o.alphabet then 0
  else
    let init := (DfaEval.new d, DfaEval.new o)
    d.evaluatorCost + o.evaluatorCost +
    exploreCost pairKey (pairSucc d.alphabet) (fun _ => true) (fun _ => 1) (fun _ => pairWork d o) (pairFuel d o) [init] [init] +
    match explore pairKey (pairSucc d.alphabet) (fun _ => true) (pairFuel d o) [init] [init] [] with
    | some (some (out, seen)) => 2 * seen.length + out.length + out.length * (1 + d.alphabet.length)
    | _ => 0

/-- Work of `reachable_state_idx` (dandy/src/dfa/mod.rs:713-724). -/
def reachableCost (d : Dfa) : Nat :=
  1 + bfsCost (fun q => some (d.state q).transitions) (fun _ => 1) (d.states.length + 1) [d.initialState] [d.initialState]

/-- Work of `unreachable_state_idx` (dandy/src/dfa/mod.rs:687-692). -/
def unreachableCost (d : Dfa) : Nat := 1 + d.reachableCost + d.states.length

/-- Work of `has_reachable_accepting_state` (dandy/src/dfa/mod.rs:696-701). -/
def hasReachableAcceptingCost (d : Dfa) : Nat := 1 + d.reachableCost + (d.reachableStateIdx.map List.length).getD 0

/-- Work of `remap_transitions` (dandy/src/dfa/mod.rs:727-734), if the mapper takes `c` steps. -/
def remapCost (d : Dfa) (c : Nat) : Nat := 1 + (d.states.map (fun s => 1 + s.transitions.length * c)).sum

/-- Work of `remove_states` (dandy/src/dfa/mod.rs:742-767): each `Vec::remove` moves the states after it; the transitions are counted for all
states, also for those removed. -/
def removeCost (d : Dfa) (toRemove : List Nat) : Nat :=
  1 + d.states.length + sortCost toRemove.length + searchCost toRemove.length + 2 * (toRemove.length * (1 + d.states.length)) +
  d.remapCost (searchCost d.states.length)

/-- Work for the worklist when the block `y` is split (dandy/src/dfa/mod.rs:648-660): `y` is compared with every set in the worklist, and the parts are
copied. -/
def splitWCost (w : List (List Nat)) (y : List Nat) : Nat := w.length * (1 + y.length) + y.length

/-- Work of `splitAll` (dandy/src/dfa/mod.rs:638-665): the intersection and the difference for every block. -/
def splitAllCost (x : List Nat) : List (List Nat) → List (List Nat) → Nat
  | [], _ => 0
  | y :: ys, w =>
    let inters := y.filter (· ∈ x)
    let diff := y.filter (· ∉ x)
    1 + 2 * y.length +
    if inters ≠ [] ∧ diff ≠ [] then splitWCost w y + splitAllCost x ys (splitW w y inters diff) else splitAllCost x ys w

/-- Work of the loop over the symbols (dandy/src/dfa/mod.rs:630-666): for each, the predecessors are searched among all states. -/
def hopcroftSymbolsCost (d : Dfa) (a : List Nat) : List Nat → List (List Nat) × List (List Nat) → Nat
  | [], _ => 0
  | c :: cs, pw =>
    1 + d.states.length + splitAllCost (d.preImage a c) pw.1 pw.2 + hopcroftSymbolsCost d a cs (splitAll (d.preImage a c) pw.1 pw.2)

/-- Work of the `while let Some(a) = w.pop()` loop (dandy/src/dfa/mod.rs:629-667). -/
def hopcroftCost (d : Dfa) : Nat → List (List Nat) → List (List Nat) → Nat
  | 0, _, _ => 0
  | k + 1, p, w =>
    1 + match w.getLast? with
    | none => 0
    | some a =>
      hopcroftSymbolsCost d a (List.range d.alphabet.length) (p, w.dropLast) +
      (let pw := hopcroftSymbols d a (List.range d.alphabet.length) (p, w.dropLast)
       hopcroftCost d k pw.1 pw.2)

/-- Work of `state_equivalence_classes_idx` (dandy/src/dfa/mod.rs:617-669): the first partition and its copy, and the loop. -/
def classesCost (d : Dfa) : Nat :=
  let finals := (List.range d.states.length).filter (fun i => (d.state i).accepting)
  let nonfinals := (List.range d.states.length).filter (fun i => !(d.state i).accepting)
  1 + d.states.length +
  if finals = [] then 0
  else if nonfinals = [] then 0
  else d.states.length + hopcroftCost d (2 * d.states.length + 1) [finals, nonfinals] [finals, nonfinals]

/-- Work of `merge_nondistinguishable_states` (dandy/src/dfa/mod.rs:579-600). -/
def mergeCost (ord : List Nat → List Nat) (d : Dfa) : Nat :=
  1 + d.classesCost +
  match d.stateEquivalenceClassesIdx with
  | none => 0
  | some classes =>
    let mapper := classes.flatMap (classPairs ord)
    (classes.map (fun c => 1 + c.length)).sum + d.remapCost 1 + mapper.length + d.removeCost (mapper.map (·.1))

/-- Work of `remove_unreachable_states` (dandy/src/dfa/mod.rs:672-675). -/
def removeUnreachableCost (d : Dfa) : Nat :=
  1 + d.unreachableCost + match d.unreachableStateIdx with
    | none => 0
    | some u => u.length + d.removeCost u

/-- Work of `minimize` (dandy/src/dfa/mod.rs:572-575). -/
def minimizeCost (ordU ord : List Nat → List Nat) (d : Dfa) : Nat :=
  1 + d.removeUnreachableCost + match d.removeUnreachableStates ordU with
    | none => 0
    | some d' => d'.mergeCost ord

end Dfa
end Dandy
