import Verif.Model.Dfa
/-!
# Model of dandy/src/nfa/eval.rs and dandy/src/nfa/mod.rs
-/

namespace Dandy

/-- `self.states[i]`. The default is never observed for valid automata (indices are in range).
For instance dandy/src/nfa/mod.rs:411. -/
def Nfa.state (n : Nfa) (i : Nat) : NfaState := n.states.getD i default

/-- One round of the `while updated` loop: the states in `to_push` (dandy/src/nfa/eval.rs:78-85). -/
def Nfa.closureRound (n : Nfa) (cur : List Nat) : List Nat :=
  (cur.flatMap (fun s => (n.state s).epsilonTransitions)).filter (· ∉ cur)

/-- dandy/src/nfa/eval.rs:73-88 `include_closure`. First argument: fuel (number of rounds). Total; the theorem
`includeClosure_done` says that the loop is left through its own condition (`updated == false`). -/
def Nfa.includeClosure (n : Nfa) : Nat → List Nat → List Nat
  | 0, cur => cur
  | k + 1, cur =>
    let toPush := n.closureRound cur
    if toPush = [] then cur else n.includeClosure k (sextend cur toPush)

/-- dandy/src/nfa/eval.rs:6-12 `NfaEvaluator`. `current_states` is an increasing list; `rev_map` is computed from
the alphabet on demand. -/
structure NfaEval where
  nfa : Nfa
  cur : List Nat
  unknown : Bool
deriving DecidableEq, Repr

namespace NfaEval

/-- dandy/src/nfa/eval.rs:91-109 `From<&Nfa>`; also dandy/src/nfa/mod.rs:1161-1163 `Nfa::evaluator`. -/
def new (n : Nfa) : NfaEval := ⟨n, n.includeClosure (n.states.length + 1) [n.initialState], false⟩

/-- dandy/src/nfa/eval.rs:15-21 `is_accepting`. -/
def isAccepting (ev : NfaEval) : Bool :=
  if ev.unknown then false else ev.cur.any (fun s => (ev.nfa.state s).accepting)

/-- dandy/src/nfa/eval.rs:23-28 `current_states`; `ord`: iteration order of the set. -/
def currentStates (ord : List Nat → List Nat) (ev : NfaEval) : List NfaState := (ord ev.cur).map ev.nfa.state

/-- dandy/src/nfa/eval.rs:30-32 `current_states_idx`. -/
def currentStatesIdx (ev : NfaEval) : List Nat := ev.cur

/-- dandy/src/nfa/eval.rs:44-61 `step`. Note that the unknown flag is not consulted here. -/
def step (ev : NfaEval) (e : Str) : NfaEval × Option Unit :=
  match revGet ev.nfa.alphabet e with
  | none => ({ ev with unknown := true }, none)
  | some i =>
    let next := sofList (ev.cur.flatMap (fun s => (ev.nfa.state s).transitions.getD i []))
    ({ ev with cur := ev.nfa.includeClosure (ev.nfa.states.length + 1) next }, some ())

/-- The `try_for_each` of dandy/src/nfa/eval.rs:64. -/
def tryForEach : NfaEval → List Str → NfaEval × Option Unit
  | ev, [] => (ev, some ())
  | ev, e :: es =>
    match ev.step e with
    | (ev', none) => (ev', none)
    | (ev', some _) => tryForEach ev' es

/-- dandy/src/nfa/eval.rs:63-71 `step_multiple`. -/
def stepMultiple (ev : NfaEval) (es : List Str) : NfaEval × Option Unit :=
  match ev.tryForEach es with
  | (ev', none) => ({ ev' with unknown := true }, none)
  | (ev', some _) => (ev', some ())

/-- dandy/src/nfa/eval.rs:34-42 `step_all`. -/
def stepAll (ev : NfaEval) : List NfaEval := ev.nfa.alphabet.map (fun e => (ev.step e).1)

end NfaEval

namespace Nfa

/-- dandy/src/nfa/mod.rs:1126-1130 `accepts`. -/
def accepts (n : Nfa) (w : List Str) : Bool := ((NfaEval.new n).stepMultiple w).1.isAccepting

/-- dandy/src/nfa/mod.rs:1137-1142 `accepts_graphemes`; `seg` is `UnicodeSegmentation::graphemes(_, true)`. -/
def acceptsGraphemes (seg : Str → List Str) (n : Nfa) (s : Str) : Bool :=
  ((NfaEval.new n).stepMultiple (seg s)).1.isAccepting

/-- dandy/src/nfa/mod.rs:1147-1151 `graphemes_only`. -/
def graphemesOnly (seg : Str → List Str) (n : Nfa) : Bool :=
  n.alphabet.all (fun s => (seg s).length == 1)

/-- dandy/src/nfa/mod.rs:1154-1158 `has_epsilon_moves`. -/
def hasEpsilonMoves (n : Nfa) : Bool := n.states.any (fun s => !s.epsilonTransitions.isEmpty)

/-- dandy/src/nfa/mod.rs:1166-1184 `closure`. `none` when the index is out of range (the loop itself always
terminates within the fuel, see C05). -/
def closure (n : Nfa) (start : Nat) : Option (List Nat) :=
  if start ≥ n.states.length then none
  else bfs (fun q => some (n.state q).epsilonTransitions) (n.states.length + 1) [start] [start]

/-- dandy/src/nfa/mod.rs:992-1011 `reachable_state_idx`. `none`: panic in `unwrap` (1005) or non-termination. -/
def reachableStateIdx (n : Nfa) : Option (List Nat) :=
  bfs (fun q => (n.closure q).map (fun c => (n.state q).transitions.flatten ++ c))
    (n.states.length + 1) [n.initialState] [n.initialState]

/-- dandy/src/nfa/mod.rs:966-971 `unreachable_state_idx`. -/
def unreachableStateIdx (n : Nfa) : Option (List Nat) :=
  n.reachableStateIdx.map (fun r => (List.range n.states.length).filter (· ∉ r))

/-- dandy/src/nfa/mod.rs:983-988 `reachable_states`; `ord`: iteration order of the set. -/
def reachableStates (ord : List Nat → List Nat) (n : Nfa) : Option (List NfaState) :=
  n.reachableStateIdx.map (fun r => (ord r).map n.state)

/-- dandy/src/nfa/mod.rs:957-962 `unreachable_states`; `ord`: iteration order of the set. -/
def unreachableStates (ord : List Nat → List Nat) (n : Nfa) : Option (List NfaState) :=
  n.unreachableStateIdx.map (fun r => (ord r).map n.state)

/-- dandy/src/nfa/mod.rs:975-980 `has_reachable_accepting_state`. -/
def hasReachableAcceptingState (n : Nfa) : Option Bool :=
  n.reachableStateIdx.map (fun r => r.any (fun i => (n.state i).accepting))

/-- dandy/src/nfa/mod.rs:924-936 `remap_transitions` with a mapper whose `None` keeps the target. -/
def remapTransitions (n : Nfa) (mapper : Nat → Option Nat) : Nfa :=
  { n with states := n.states.map (fun s =>
      { s with transitions := s.transitions.map (fun ts => ts.map (fun t => (mapper t).getD t))
               epsilonTransitions := s.epsilonTransitions.map (fun t => (mapper t).getD t) }) }

/-- dandy/src/nfa/mod.rs:895-920 `remove_states`. `none` is a panic: removing the initial state (903), removing an
index out of range (907), or a transition to a removed state (914, debug assertions on). Debug build, see
`Dfa.removeStates`. -/
def removeStates (n : Nfa) (toRemove : List Nat) : Option Nfa := do
  let rm := toRemove.insertionSort (· ≤ ·)
  let initialState ← match binarySearch rm n.initialState with
    | .error lessThan => some (n.initialState - lessThan)
    | .ok _ => none
  let states ← vecRemoveAll rm.reverse n.states
  let old ← vecRemoveAll rm.reverse (List.range n.states.length)
  let find := fun t => (binarySearch old t).toOption
  let states ← states.mapM (fun s => do
    let tr ← s.transitions.mapM (fun ts => ts.mapM find)
    let eps ← s.epsilonTransitions.mapM find
    pure { s with transitions := tr, epsilonTransitions := eps })
  pure { n with states := states, initialState := initialState }

/-- dandy/src/nfa/mod.rs:951-954 `remove_unreachable_states`. `ord`: iteration order of the set. -/
def removeUnreachableStates (ord : List Nat → List Nat) (n : Nfa) : Option Nfa := do
  let u ← n.unreachableStateIdx
  n.removeStates (ord u)

/-- The search `(0..).map(to_string).find(unused)` of `fresh_name` (dandy/src/nfa/mod.rs:942-945), from `i` on.
First argument: fuel; running out of it (never happens, C46) would give the current number. -/
def freshNumber (names : List Str) : Nat → Nat → Str
  | 0, i => numStr i
  | k + 1, i => if numStr i ∈ names then freshNumber names k (i + 1) else numStr i

/-- dandy/src/nfa/mod.rs:938-947 `fresh_name`. -/
def freshName (names : List Str) (wanted : Str) : Str :=
  if wanted ∉ names then wanted else freshNumber names (names.length + 1) 0

/-- `alphabet_translation` (dandy/src/nfa/mod.rs:350-360 with `target = self.alphabet`; 485-496 with
`target = other.alphabet`): the first index in `target` of each element; `none` is the `unwrap` panic. -/
def alphabetTranslation (source target : List Str) : Option (List Nat) :=
  source.mapM (fun e => target.findIdx? (e == ·))

/-- `windows(2).all(|v| v[0] < v[1])` (dandy/src/nfa/mod.rs:364). -/
def isIncreasing : List Nat → Bool
  | a :: b :: l => a < b && isIncreasing (b :: l)
  | _ => true

/-- The re-ordering of the columns of one state (dandy/src/nfa/mod.rs:367-375): zip with the translation, stable sort
by it (`sort_by_key`), drop it. -/
def reorderRow (translation : List Nat) (row : List (List Nat)) : List (List Nat) :=
  ((row.zip translation).insertionSort (fun a b => a.2 ≤ b.2)).map (·.1)

/-- The name `s_new` (dandy/src/nfa/mod.rs:404, 848). -/
def sNew : Str := ['s', '_', 'n', 'e', 'w']

/-- dandy/src/nfa/mod.rs:345-416 `union`. Outer `Option`: panic; `Except.error` is Rust's `Err((self, other))`. -/
def union (n o : Nfa) : Option (Except (Nfa × Nfa) Nfa) :=
  if !alphabetEqual n.alphabet o.alphabet then some (.error (n, o))
  else do
    let translation ← alphabetTranslation o.alphabet n.alphabet
    -- 364-377
    let o := if isIncreasing translation then o
      else { o with states := o.states.map (fun s => { s with transitions := reorderRow translation s.transitions }) }
    -- 379-384
    let aStates := n.states.length
    let o := o.remapTransitions (fun b => some (b + aStates))
    let bInit := o.initialState + aStates
    let states := n.states ++ o.states
    -- 386-401
    let states := if (states.map (·.name)).dedup.length ≠ states.length
      then states.zipIdx.map (fun p => { p.1 with name := numStr (p.2 + 1) })
      else states
    -- 403-414
    let newInitial : NfaState :=
      { name := freshName (states.map (·.name)) sNew, initial := true, accepting := false,
        epsilonTransitions := [n.initialState, bInit], transitions := List.replicate n.alphabet.length [] }
    let states := states.modify n.initialState (fun s => { s with initial := false })
    let states := states.modify bInit (fun s => { s with initial := false })
    pure (.ok { alphabet := n.alphabet, states := states ++ [newInitial], initialState := states.length })

/-- A pair of optional states of the product construction. dandy/src/nfa/mod.rs:502 and the loop
after it. -/
abbrev OPair := Option Nat × Option Nat

/-- `s1.filter(|&idx| !self.states[idx].transitions[elem].is_empty())` followed by reading that entry
(dandy/src/nfa/mod.rs:524-530): the non-empty target list, or `none`. -/
def liveTargets (n : Nfa) (s : Option Nat) (elem : Nat) : Option (List Nat) :=
  match s with
  | none => none
  | some q => let ts := (n.state q).transitions.getD elem []
              if ts = [] then none else some ts

/-- The successors of a pair on one element (dandy/src/nfa/mod.rs:517-566). -/
def pairTargets (n o : Nfa) (elem otherElem : Nat) (p : OPair) : List OPair :=
  match n.liveTargets p.1 elem, o.liveTargets p.2 otherElem with
  | some l1, some l2 => l1.flatMap (fun t1 => l2.map (fun t2 => (some t1, some t2)))
  | some l1, none => l1.map (fun t1 => (some t1, none))
  | none, some l2 => l2.map (fun t2 => (none, some t2))
  | none, none => []

/-- `transition_list` of a pair (dandy/src/nfa/mod.rs:516-569). -/
def pairRow (n o : Nfa) (translation : List Nat) (p : OPair) : List (List OPair) :=
  (List.range n.alphabet.length).map (fun elem => pairTargets n o elem (translation.getD elem 0) p)

/-- `eps_transitions` of a pair (dandy/src/nfa/mod.rs:571-589). -/
def pairEps (n o : Nfa) (p : OPair) : List OPair :=
  (match p.1 with
   | some s1 => (n.state s1).epsilonTransitions.map (fun t => (some t, p.2))
   | none => []) ++
  (match p.2 with
   | some s2 => (o.state s2).epsilonTransitions.map (fun t => (p.1, some t))
   | none => [])

/-- `"none"` (dandy/src/nfa/mod.rs:610-611). -/
def noneName : Str := ['n', 'o', 'n', 'e']

/-- dandy/src/nfa/mod.rs:475-676 `product_construction`. Outer `Option`: panic or non-termination; inner: the returned
value. `ord`: iteration order of the hash set `explored_states`. The combinator is a pure function (with effects: Verif.Model.ProductMut). -/
def product (ord : List OPair → List OPair) (n o : Nfa)
    (combinator : Option NfaState → Option NfaState → Bool) : Option (Option Nfa) :=
  if !alphabetEqual n.alphabet o.alphabet then some none
  else do
    let translation ← alphabetTranslation n.alphabet o.alphabet
    let q : OPair := (some n.initialState, some o.initialState)
    let succ := fun p => (pairRow n o translation p).flatten ++ pairEps n o p
    let r ← explore id succ (fun _ => true) ((n.states.length + 1) * (o.states.length + 1) + 1) [q] [q] []
    let os ← r
    -- 591-599
    let stateData := os.1.map (fun p => (p, combinator (p.1.map n.state) (p.2.map o.state),
      pairRow n o translation p, pairEps n o p))
    -- 602-626
    let names := genNames (fun p : OPair => Dfa.pairName
        ((p.1.map (fun s => (n.state s).name)).getD noneName) ((p.2.map (fun s => (o.state s).name)).getD noneName))
      (ord os.2) stateData.length
    -- 628-635
    let idx := fun p => revGet (stateData.map (·.1)) p
    let initialState ← idx q
    -- 637-670
    let states ← stateData.mapM (fun sd => do
      let name ← names.lookup sd.1
      let tr ← sd.2.2.1.mapM (fun l => l.mapM idx)
      let eps ← sd.2.2.2.mapM idx
      pure ({ name := name, initial := sd.1 == q, accepting := sd.2.1, transitions := tr,
              epsilonTransitions := eps } : NfaState))
    pure (some { alphabet := n.alphabet, states := states, initialState := initialState })

/-- The combinator of `intersection` (dandy/src/nfa/mod.rs:451-454). -/
def bothAccepting (s1 s2 : Option NfaState) : Bool :=
  match s1, s2 with
  | some s1, some s2 => s1.accepting && s2.accepting
  | _, _ => false

/-- dandy/src/nfa/mod.rs:450-455 `intersection`. -/
def intersection (ord : List OPair → List OPair) (n o : Nfa) : Option (Option Nfa) := product ord n o bothAccepting

/-- The condition for a state to be added to `dead_states` (dandy/src/nfa/mod.rs:790-796, 831-836). -/
def isDead (dead : List Nat) (idx : Nat) (s : NfaState) : Bool :=
  idx ∉ dead && !s.accepting && !s.initial && s.transitions.all (fun ts => ts.all (· ∈ dead))

/-- One pass of the `for` loop of the dead state search (dandy/src/nfa/mod.rs:789-801, 830-841);
the set is updated while the states are traversed. -/
def deadPass : List (NfaState × Nat) → List Nat → List Nat
  | [], dead => dead
  | (s, idx) :: l, dead => deadPass l (if isDead dead idx s then sins idx dead else dead)

/-- The `while added_states` loop (dandy/src/nfa/mod.rs:786-802, 827-842); a pass that adds no state leaves the set
unchanged. First argument: fuel; `none`: out of fuel. -/
def deadLoop (states : List NfaState) : Nat → List Nat → Option (List Nat)
  | 0, _ => none
  | k + 1, dead =>
    let dead' := deadPass states.zipIdx dead
    if dead' = dead then some dead else deadLoop states k dead'

/-- dandy/src/nfa/mod.rs:756-887 `remove_epsilon_moves`. `none` is a panic or non-termination.
`ordT s c` is the iteration order of the set that becomes the transitions of state number `s` (the new initial state
has the number `states.len()`) on the `c`-th element; `ordDead` that of `dead_states`. -/
def removeEpsilonMoves (ordT : Nat → Nat → List Nat → List Nat) (ordDead : List Nat → List Nat)
    (n : Nfa) : Option Nfa :=
  if !n.hasEpsilonMoves then some n
  else do
    -- 762-764 (`filter_map`: `closure` never returns `None` here)
    let closures := (List.range n.states.length).filterMap n.closure
    -- 767-780
    let states1 := n.states.zipIdx.map (fun p => { p.1 with
      transitions := p.1.transitions.zipIdx.map (fun q =>
        ordT p.2 q.2 (q.1.foldl (fun set t => sextend set (closures.getD t [])) []))
      epsilonTransitions := [] })
    -- 784-802
    let dead ← deadLoop states1 (n.states.length + 1) []
    -- 806-810
    let initClosure := (closures.getD n.initialState []).filter (· ∉ dead)
    -- 811-875
    let (states3, dead, initialState) ←
      if initClosure.length > 1 then do
        let oldInitial := n.initialState
        let states2 := states1.modify oldInitial (fun s => { s with initial := false })
        let old := states2.getD oldInitial default
        let oldStateDead := !old.accepting && old.transitions.all (fun ts => ts.all (· ∈ dead))
        let dead ← if oldStateDead then deadLoop states2 (n.states.length + 1) (sins oldInitial dead) else some dead
        let name := if oldStateDead then old.name else freshName (states2.map (·.name)) sNew
        let transitions := (List.range n.alphabet.length).map (fun c =>
          (ordT n.states.length c (initClosure.foldl (fun set s =>
            sextend set ((states2.getD s default).transitions.getD c [])) [])).filter (· ∉ dead))
        let newState : NfaState :=
          { name := name, initial := true,
            accepting := initClosure.any (fun i => (states2.getD i default).accepting),
            epsilonTransitions := [], transitions := transitions }
        some (states2 ++ [newState], dead, states2.length)
      else some (states1, dead, n.initialState)
    -- 878-883
    let states4 := states3.map (fun s => { s with transitions := s.transitions.map (fun ts => ts.filter (· ∉ dead)) })
    -- 886
    Nfa.removeStates { n with states := states4, initialState := initialState } (ordDead dead)

/-- dandy/src/nfa/mod.rs:681-684 `optimize`. -/
def optimize (ordU : List Nat → List Nat) (ordT : Nat → Nat → List Nat → List Nat) (ordDead : List Nat → List Nat)
    (n : Nfa) : Option Nfa := do
  let n' ← n.removeUnreachableStates ordU
  n'.removeEpsilonMoves ordT ordDead

/-- dandy/src/nfa/mod.rs:1057-1122 `to_dfa`. `none`: panic (`unwrap`, 1113) or non-termination.
`map` (set ↦ number) is the list of discovered evaluators in order of discovery, the number being the position.
Simplifications: `set_to_vec` (1275-1279) is the identity on increasing lists; whether number `n` is in `accepting` is
read off the discovered evaluator number `n` (acceptance depends only on the set); the row of a popped evaluator is
computed from the final `map`, in which numbers assigned earlier are unchanged. -/
def toDfa (n : Nfa) : Option Dfa := do
  let init := NfaEval.new n
  let r ← explore NfaEval.currentStatesIdx NfaEval.stepAll (fun _ => true) (2 ^ n.states.length + 1) [init] [init] []
  let os ← r
  let keys := os.2.map NfaEval.currentStatesIdx
  let transitions ← os.1.mapM (fun ev => do
    let tr ← ev.stepAll.mapM (fun ev' => keys.findIdx? (· == ev'.currentStatesIdx))
    pure (ev.currentStatesIdx, tr))
  let states ← os.2.zipIdx.mapM (fun p => do
    let tr ← transitions.lookup p.1.currentStatesIdx
    pure ({ name := numStr p.2, initial := p.2 == 0, accepting := p.1.isAccepting, transitions := tr } : DfaState))
  pure { alphabet := n.alphabet, states := states, initialState := 0 }

/-- Key of a pair of NFA evaluators (dandy/src/nfa/mod.rs:1246-1249, 1263-1266). -/
def pairKey (p : NfaEval × NfaEval) : List Nat × List Nat := (p.1.currentStatesIdx, p.2.currentStatesIdx)

/-- Successors of a pair of NFA evaluators (dandy/src/nfa/mod.rs:1258-1262). -/
def pairSucc (alphabet : List Str) (p : NfaEval × NfaEval) : List (NfaEval × NfaEval) :=
  alphabet.map (fun e => ((p.1.step e).1, (p.2.step e).1))

/-- dandy/src/nfa/mod.rs:1237-1272 `equivalent_to`. `none`: out of fuel. -/
def equivalentTo (n o : Nfa) : Option Bool :=
  if !alphabetEqual n.alphabet o.alphabet then some false
  else
    let init := (NfaEval.new n, NfaEval.new o)
    match explore pairKey (pairSucc n.alphabet) (fun p => p.1.isAccepting == p.2.isAccepting)
        (2 ^ (n.states.length + o.states.length) + 1) [init] [init] [] with
    | none => none
    | some none => some false
    | some (some _) => some true

end Nfa
end Dandy
