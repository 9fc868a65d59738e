import Verif.Model.Nfa
import Verif.Model.AlgCost
/-!
# The work done by the algorithms on NFAs (dandy/src/nfa/eval.rs, dandy/src/nfa/mod.rs)

Counted as in `Verif.Model.AlgCost`. A set of states used as a key counts its size, and sorting it first (`set_to_vec`, dandy/src/nfa/mod.rs:1275-1279).
-/

namespace Dandy

/-- Work of turning a set of `r` states into a sorted vector and hashing it (dandy/src/nfa/mod.rs:1275-1279). -/
def keyCost (r : Nat) : Nat := 1 + sortCost r + 2 * r

namespace Nfa

/-- Work of the `while updated` loop of `include_closure` (dandy/src/nfa/eval.rs:73-88): in each round all epsilon transitions of the current states are
looked at, and the new ones are inserted. -/
def includeClosureCost (n : Nfa) : Nat → List Nat → Nat
  | 0, _ => 0
  | k + 1, cur =>
    let toPush := n.closureRound cur
    1 + (cur.map (fun s => 1 + (n.state s).epsilonTransitions.length)).sum + toPush.length +
    if toPush = [] then 0 else n.includeClosureCost k (sextend cur toPush)

/-- Work of making an evaluator (dandy/src/nfa/eval.rs:91-109). -/
def evaluatorCost (n : Nfa) : Nat := 1 + n.alphabet.length + n.includeClosureCost (n.states.length + 1) [n.initialState]

end Nfa

namespace NfaEval

/-- Work of cloning an evaluator (dandy/src/nfa/eval.rs:5-12): the set is copied, the map of the alphabet is shared. -/
def cloneCost (ev : NfaEval) : Nat := 1 + ev.cur.length

/-- Work of `is_accepting` (dandy/src/nfa/eval.rs:15-28): a vector of the states is made first. -/
def acceptingCost (ev : NfaEval) : Nat := 1 + if ev.unknown then 0 else 2 * ev.cur.length

/-- Work of `step` (dandy/src/nfa/eval.rs:44-61). -/
def stepCost (ev : NfaEval) (e : Str) : Nat :=
  1 + match revGet ev.nfa.alphabet e with
    | none => 0
    | some i =>
      (ev.cur.map (fun s => 1 + ((ev.nfa.state s).transitions.getD i []).length)).sum +
      ev.nfa.includeClosureCost (ev.nfa.states.length + 1) (sofList (ev.cur.flatMap (fun s => (ev.nfa.state s).transitions.getD i [])))

/-- Work of `step_multiple` (dandy/src/nfa/eval.rs:63-71). -/
def stepsCost : NfaEval → List Str → Nat
  | _, [] => 1
  | ev, e :: es => 1 + ev.stepCost e + match ev.step e with
    | (_, none) => 0
    | (ev', some _) => stepsCost ev' es

/-- Work of `step_all` (dandy/src/nfa/eval.rs:34-42): the evaluator is cloned for every element. -/
def stepAllCost (ev : NfaEval) : Nat := 1 + ev.cloneCost + (ev.nfa.alphabet.map (fun e => 1 + ev.cloneCost + ev.stepCost e)).sum

end NfaEval

namespace Nfa

/-- Work of `accepts` (dandy/src/nfa/mod.rs:1126-1130). -/
def acceptsCost (n : Nfa) (w : List Str) : Nat :=
  1 + n.evaluatorCost + (NfaEval.new n).stepsCost w + ((NfaEval.new n).stepMultiple w).1.acceptingCost

/-- Work of `closure` (dandy/src/nfa/mod.rs:1166-1184). -/
def closureCost (n : Nfa) (start : Nat) : Nat :=
  1 + if start ≥ n.states.length then 0
  else bfsCost (fun q => some (n.state q).epsilonTransitions) (fun _ => 1) (n.states.length + 1) [start] [start]

/-- Work of `reachable_state_idx` (dandy/src/nfa/mod.rs:992-1011): the closure is computed for every state. -/
def reachableCost (n : Nfa) : Nat :=
  1 + bfsCost (fun q => (n.closure q).map (fun c => (n.state q).transitions.flatten ++ c))
    (fun q => 1 + (n.state q).transitions.length + n.closureCost q) (n.states.length + 1) [n.initialState] [n.initialState]

/-- Work of `unreachable_state_idx` (dandy/src/nfa/mod.rs:966-971). -/
def unreachableCost (n : Nfa) : Nat := 1 + n.reachableCost + n.states.length

/-- Work of `remap_transitions` (dandy/src/nfa/mod.rs:924-936), if the mapper takes `c` steps. -/
def remapCost (n : Nfa) (c : Nat) : Nat :=
  1 + (n.states.map (fun s => 1 + (s.transitions.map (fun ts => 1 + ts.length * c)).sum + s.epsilonTransitions.length * c)).sum

/-- Work of `remove_states` (dandy/src/nfa/mod.rs:895-920), as for DFAs. -/
def removeCost (n : Nfa) (toRemove : List Nat) : Nat :=
  1 + n.states.length + sortCost toRemove.length + searchCost toRemove.length + 2 * (toRemove.length * (1 + n.states.length)) +
  n.remapCost (searchCost n.states.length)

/-- Work of `remove_unreachable_states` (dandy/src/nfa/mod.rs:951-954). -/
def removeUnreachableCost (n : Nfa) : Nat :=
  1 + n.unreachableCost + match n.unreachableStateIdx with
    | none => 0
    | some u => u.length + n.removeCost u

/-- Work of the search in `fresh_name` (dandy/src/nfa/mod.rs:942-945): each try compares with all names. -/
def freshNumberCost (names : List Str) : Nat → Nat → Nat
  | 0, _ => 0
  | k + 1, i => 1 + names.length + if numStr i ∈ names then freshNumberCost names k (i + 1) else 0

/-- Work of `fresh_name` (dandy/src/nfa/mod.rs:938-947). -/
def freshCost (names : List Str) (wanted : Str) : Nat :=
  1 + names.length + if wanted ∉ names then 0 else freshNumberCost names (names.length + 1) 0

/-- Work of `union` (dandy/src/nfa/mod.rs:345-416): the alphabets are compared, the columns of every state are sorted if needed, the targets are
shifted, the states are moved, the names are collected and possibly renewed, the name of the new initial state is searched, and it is made. -/
def unionCost (n o : Nfa) : Nat :=
  1 + alphabetEqualCost n.alphabet o.alphabet +
  if !alphabetEqual n.alphabet o.alphabet then 0
  else
    o.alphabet.length * (1 + n.alphabet.length) + o.alphabet.length +
    (match alphabetTranslation o.alphabet n.alphabet with
     | none => 0
     | some tr => if isIncreasing tr then 0
       else (o.states.map (fun s => 1 + 2 * s.transitions.length + sortCost s.transitions.length)).sum) +
    o.remapCost 1 + o.states.length + 2 * (n.states.length + o.states.length) +
    (match union n o with
     | some (.ok u) => freshCost (u.states.dropLast.map (·.name)) sNew
     | _ => 0) +
    n.alphabet.length + 1

/-- Work for one pair of the product construction (dandy/src/nfa/mod.rs:508-599): one step per element, and per transition. -/
def pairWork (n o : Nfa) (translation : List Nat) (p : OPair) : Nat :=
  1 + n.alphabet.length + (pairRow n o translation p).flatten.length + (pairEps n o p).length

/-- Work of `product_construction` (dandy/src/nfa/mod.rs:475-676): the translation of the alphabet, the exploration, the names (made twice at
most), the numbers of the states, and the states with their transitions. -/
def productCost (n o : Nfa) : Nat :=
  1 + alphabetEqualCost n.alphabet o.alphabet +
  if !alphabetEqual n.alphabet o.alphabet then 0
  else match alphabetTranslation n.alphabet o.alphabet with
    | none => 0
    | some tr =>
      let q : OPair := (some n.initialState, some o.initialState)
      let succ := fun p => (pairRow n o tr p).flatten ++ pairEps n o p
      n.alphabet.length * (1 + o.alphabet.length) +
      exploreCost id succ (fun _ => true) (fun _ => 0) (pairWork n o tr) ((n.states.length + 1) * (o.states.length + 1) + 1) [q] [q] +
      match explore id succ (fun _ => true) ((n.states.length + 1) * (o.states.length + 1) + 1) [q] [q] [] with
      | some (some (out, seen)) => 2 * seen.length + out.length + (out.map (pairWork n o tr)).sum
      | _ => 0

/-- Work for looking at the transitions of a state in the search of dead states (dandy/src/nfa/mod.rs:790-796). -/
def rowCost (s : NfaState) : Nat := 1 + (s.transitions.map (fun ts => 1 + ts.length)).sum

/-- Work of the search of dead states (dandy/src/nfa/mod.rs:786-802, 827-842). -/
def deadCost (states : List NfaState) : Nat → List Nat → Nat
  | 0, _ => 0
  | k + 1, dead =>
    let dead' := deadPass states.zipIdx dead
    1 + (states.map rowCost).sum + if dead' = dead then 0 else deadCost states k dead'

/-- Work of inlining the epsilon closures of one state (dandy/src/nfa/mod.rs:767-780): for every target, its closure is inserted, and the set is
turned into a vector. -/
def inlineCost (closures : List (List Nat)) (s : NfaState) : Nat :=
  1 + (s.transitions.map (fun ts => 1 + 2 * (ts.map (fun t => 1 + (closures.getD t []).length)).sum)).sum

/-- Work of removing the dead states from the transitions and from the list of states (dandy/src/nfa/mod.rs:878-886), counted as if there were `m` states,
all dead, with `k` entries of `m` targets each (simplification: an upper bound). -/
def removeDeadCost (m k : Nat) : Nat :=
  m * (1 + k * (1 + m)) + (1 + m + sortCost m + searchCost m + 2 * (m * (1 + m)) + (1 + m * (1 + k * (1 + m * searchCost m))))

/-- Work of `remove_epsilon_moves` (dandy/src/nfa/mod.rs:756-887). What follows the first search of dead states is counted as if a new initial state
was needed, the old one was dead, and the name of the new one had to be searched (simplification: an upper bound). -/
def removeEpsilonCost (ordT : Nat → Nat → List Nat → List Nat) (n : Nfa) : Nat :=
  1 + n.states.length +
  if !n.hasEpsilonMoves then 0
  else
    let closures := (List.range n.states.length).filterMap n.closure
    let states1 := n.states.zipIdx.map (fun p => { p.1 with
      transitions := p.1.transitions.zipIdx.map (fun q =>
        ordT p.2 q.2 (q.1.foldl (fun set t => sextend set (closures.getD t [])) []))
      epsilonTransitions := [] })
    ((List.range n.states.length).map n.closureCost).sum + (n.states.map (inlineCost closures)).sum +
    deadCost states1 (n.states.length + 1) [] +
    match deadLoop states1 (n.states.length + 1) [] with
    | none => 0
    | some dead =>
      let initClosure := (closures.getD n.initialState []).filter (· ∉ dead)
      let states2 := states1.modify n.initialState (fun s => { s with initial := false })
      (closures.getD n.initialState []).length + rowCost (states2.getD n.initialState default) +
      deadCost states2 (n.states.length + 1) (sins n.initialState dead) +
      freshCost (states2.map (·.name)) sNew +
      (initClosure.map (fun s => 1 + rowCost (states2.getD s default))).sum + n.alphabet.length * (1 + n.states.length) +
      removeDeadCost (n.states.length + 1) n.alphabet.length

/-- Work of `optimize` (dandy/src/nfa/mod.rs:681-684). -/
def optimizeCost (ordU : List Nat → List Nat) (ordT : Nat → Nat → List Nat → List Nat) (n : Nfa) : Nat :=
  1 + n.removeUnreachableCost + match n.removeUnreachableStates ordU with
    | none => 0
    | some n' => n'.removeEpsilonCost ordT

/-- Work for one evaluator in `to_dfa` (dandy/src/nfa/mod.rs:1080-1097): the successors, and for each whether it is accepting, its key, and three
uses of the key. -/
def subsetWork (ev : NfaEval) : Nat :=
  ev.stepAllCost + (ev.stepAll.map (fun ev' => 1 + ev'.acceptingCost + 3 * keyCost ev'.cur.length)).sum + 2 * keyCost ev.cur.length

/-- Work of `to_dfa` (dandy/src/nfa/mod.rs:1057-1122): the exploration, sorting the keys by number, and making the states. -/
def toDfaCost (n : Nfa) : Nat :=
  let init := NfaEval.new n
  1 + n.evaluatorCost + init.acceptingCost + 2 * keyCost init.cur.length +
  exploreCost NfaEval.currentStatesIdx NfaEval.stepAll (fun _ => true) (fun _ => 0) subsetWork (2 ^ n.states.length + 1) [init] [init] +
  match explore NfaEval.currentStatesIdx NfaEval.stepAll (fun _ => true) (2 ^ n.states.length + 1) [init] [init] [] with
  | some (some (_, seen)) => seen.length + sortCost seen.length + (seen.map (fun ev => 2 + keyCost ev.cur.length)).sum
  | _ => 0

/-- Work for one pair of evaluators in `equivalent_to` (dandy/src/nfa/mod.rs:1258-1269). -/
def pairStepWork (alphabet : List Str) (p : NfaEval × NfaEval) : Nat :=
  (alphabet.map (fun e => 1 + p.1.cloneCost + p.1.stepCost e + p.2.cloneCost + p.2.stepCost e +
    keyCost (p.1.step e).1.cur.length + keyCost (p.2.step e).1.cur.length)).sum

/-- Work of `equivalent_to` (dandy/src/nfa/mod.rs:1237-1272). -/
def equivalentCost (n o : Nfa) : Nat :=
  1 + alphabetEqualCost n.alphabet o.alphabet +
  if !alphabetEqual n.alphabet o.alphabet then 0
  else
    let init := (NfaEval.new n, NfaEval.new o)
    n.evaluatorCost + o.evaluatorCost + keyCost init.1.cur.length + keyCost init.2.cur.length +
    exploreCost pairKey (pairSucc n.alphabet) (fun p => p.1.isAccepting == p.2.isAccepting)
      (fun p => p.1.acceptingCost + p.2.acceptingCost) (pairStepWork n.alphabet)
      (2 ^ (n.states.length + o.states.length) + 1) [init] [init]

end Nfa
end Dandy
