import Verif.Model.Nfa
/-!
# Model of dandy/src/nfa/words.rs
-/

namespace Dandy

/-- dandy/src/nfa/words.rs:328-345 `NumBool` and its `Add` (`false + false = false, _ = true`), as `Bool`. -/
def numAdd (a b : Bool) : Bool := if a == false && b == false then false else true

/-- dandy/src/nfa/words.rs:353-363 `Mul` of `NumBool`. -/
def numMul (a b : Bool) : Bool := if a == false || b == false then false else true

/-- nalgebra `DMatrix<NumBool>`: a list of rows. dandy/src/nfa/words.rs:74. -/
abbrev BMat := List (List Bool)

/-- nalgebra `DMatrix::from_fn(n, n, f)`. Called at dandy/src/nfa/words.rs:283,
dandy/src/nfa/words.rs:289. -/
def BMat.fromFn (n : Nat) (f : Nat → Nat → Bool) : BMat := (List.range n).map (fun i => (List.range n).map (f i))

/-- `matrix[(i, j)]`; indices are in range for valid automata. dandy/src/nfa/words.rs:224. -/
def BMat.get (m : BMat) (i j : Nat) : Bool := (m.getD i []).getD j false

/-- nalgebra's product of two `n × n` matrices over `NumBool`: entry `(i, j)` is the sum of the products.
With the operations of dandy/src/nfa/words.rs:335-385. -/
def BMat.mul (n : Nat) (a b : BMat) : BMat :=
  BMat.fromFn n (fun i j => (List.range n).foldl (fun acc k => numAdd acc (numMul (a.get i k) (b.get k j))) false)

/-- dandy/src/nfa/words.rs:72-81 `WordComponentIndices`. `state_stack` is kept with the top (end of the `Vec`) first.
Sets of states are increasing lists. -/
structure WordIter where
  nfa : Nfa
  adj : List BMat
  finals : List Nat
  stack : List (List Nat)
  failed : Bool
  last : Option (List Nat)
deriving Repr

namespace WordIter

/-- dandy/src/nfa/words.rs:245-267 `is_reachable_in_one_step`. `none`: the `expect`/`unwrap` on `closure` panics. -/
def reachableInOneStep (n : Nfa) (start dest : Nat) (eps : Bool) : Option Bool :=
  if eps then do
    let cl ← n.closure start
    let bs ← cl.mapM (fun mid => (n.state mid).transitions.flatten.mapM (fun d => do
      let c ← n.closure d
      return decide (dest ∈ c)))
    return bs.any (fun l => l.any id)
  else some ((n.state start).transitions.any (fun onSymbol => onSymbol.contains dest))

/-- dandy/src/nfa/words.rs:280-286 `generate_adjacency_matrix`. Only called on automata without epsilon moves, see `new`;
a panicking entry counts as false (never happens on valid automata). -/
def adjacency (n : Nfa) : BMat :=
  BMat.fromFn n.states.length (fun start dest => (reachableInOneStep n start dest n.hasEpsilonMoves).getD false)

/-- dandy/src/nfa/words.rs:288-290 `identity_matrix`. -/
def identity (n : Nat) : BMat := BMat.fromFn n (fun x y => x == y)

/-- dandy/src/nfa/words.rs:292-315 `new`. `none`: the `unimplemented!` panic. -/
def new (n : Nfa) : Option WordIter :=
  if n.hasEpsilonMoves then none
  else some {
    nfa := n
    adj := [identity n.states.length, adjacency n]
    finals := (List.range n.states.length).filter (fun i => (n.state i).accepting)
    stack := []
    failed := false
    last := none }

/-- dandy/src/nfa/words.rs:269-274 `generate_matrices_up_to`: the loop runs as often as matrices are missing. -/
def generateUpTo (n : Nat) (adj : List BMat) (k : Nat) : List BMat :=
  (List.range (k + 1 - adj.length)).foldl (fun adj _ => adj ++ [BMat.mul n (adj.getD 1 []) (adj.getLastD [])]) adj

/-- The loop of `min_word` (dandy/src/nfa/words.rs:216-240). First argument: the number `n - i` of remaining elements;
`top` is `current_s`. Returns the word and the stack. `none`: `unwrap` or an index panics. -/
def minLoop (it : WordIter) : Nat → List Nat → List (List Nat) → Option (List Nat × List (List Nat))
  | 0, _, stack => some ([], stack)
  | m + 1, top, stack => do
    let matrix ← it.adj[m]?
    let elem ← (List.range it.nfa.alphabet.length).find? (fun elem =>
      top.any (fun u => it.finals.any (fun f =>
        ((it.nfa.state u).transitions.getD elem []).any (fun v => matrix.get v f))))
    if m = 0 then return ([elem], stack)
    else
      let newS := (top.foldl (fun set idx => sextend set ((it.nfa.state idx).transitions.getD elem [])) []).filter
        (fun v => it.finals.any (fun f => matrix.get v f))
      let (w, stack) ← minLoop it m newS (newS :: stack)
      return (elem :: w, stack)

/-- dandy/src/nfa/words.rs:198-243 `min_word`: the iterator after the call, and the result. `none`: panic. -/
def minWord (it : WordIter) (n : Nat) : Option (WordIter × Option (List Nat)) := do
  let it := { it with adj := generateUpTo it.nfa.states.length it.adj n }
  let top ← it.stack.head?
  let matrix ← it.adj[n]?
  if top.all (fun a => it.finals.all (fun b => matrix.get a b == false)) then return (it, none)
  else
    let (w, stack) ← minLoop it n top it.stack
    return ({ it with stack := stack }, some w)

/-- One step of `n_complete` (dandy/src/nfa/words.rs:138-144): all successors. -/
def succs (n : Nfa) (s : List Nat) : List Nat := sofList (s.flatMap (fun i => (n.state i).transitions.flatten))

/-- `n_complete` (dandy/src/nfa/words.rs:135-146). -/
def nComplete (n : Nfa) (k start : Nat) : Bool :=
  ((List.range k).foldl (fun s _ => succs n s) [start]).any (fun idx => (n.state idx).accepting)

/-- `r` (dandy/src/nfa/words.rs:150-155). -/
def nextR (n : Nfa) (cur : List Nat) (k : Nat) : List Nat :=
  sofList ((cur.flatMap (fun i => (n.state i).transitions.flatten)).filter (nComplete n k))

/-- `a` (dandy/src/nfa/words.rs:158-167). -/
def nextA (n : Nfa) (cur : List Nat) (k : Nat) : List Nat :=
  let r := nextR n cur k
  (List.range n.alphabet.length).filter (fun idx =>
    let lhs := sofList (cur.flatMap (fun u => (n.state u).transitions.getD idx []))
    decide ((lhs.filter (· ∈ r)).length > 0))

/-- The loop of `next_word` (dandy/src/nfa/words.rs:148-194). First argument: `i` (going down); `word` stays the same
while the loop runs. -/
def nextLoop (word : List Nat) : Nat → WordIter → Option (WordIter × Option (List Nat))
  | 0, it => some (it, none)
  | i + 1, it => do
    let cur ← it.stack.head?
    let k := word.length - (i + 1)
    let a := nextA it.nfa cur k
    let x ← word[i]?
    if a.all (· ≤ x) then nextLoop word i { it with stack := it.stack.tail }
    else
      let b ← a.find? (fun a => decide (a > x))
      let s := sofList ((cur.flatMap (fun i => (it.nfa.state i).transitions.getD b [])).filter (nComplete it.nfa k))
      let w := word.take i ++ [b]
      if i + 1 ≠ word.length then
        let (it, rest) ← minWord { it with stack := s :: it.stack } k
        let rest ← rest
        return (it, some (w ++ rest))
      else return (it, some w)

/-- dandy/src/nfa/words.rs:129-195 `next_word`. -/
def nextWord (it : WordIter) (word : List Nat) : Option (WordIter × Option (List Nat)) := nextLoop word word.length it

/-- The `while num_cec < self.nfa.states.len()` loop (dandy/src/nfa/words.rs:110-126). First argument: the number of
rounds left. -/
def cecLoop : Nat → Nat → WordIter → Option WordIter
  | 0, _, it => some { it with last := none, failed := true }
  | c + 1, len, it => do
    let (it, r) ← minWord { it with stack := [[it.nfa.initialState]] } len
    match r with
    | none => cecLoop c (len + 1) it
    | some w => return { it with last := some w }

/-- dandy/src/nfa/words.rs:94-127 `put_next`. `none`: panic. -/
def putNext (it : WordIter) : Option WordIter :=
  if it.failed then some it
  else match it.last with
    | none => cecLoop it.nfa.states.length 0 it
    | some last => do
      let (it, r) ← nextWord it last
      match r with
      | some new => return { it with last := some new }
      | none => cecLoop it.nfa.states.length (last.length + 1) it

/-- dandy/src/nfa/words.rs:83-90 `next` of `WordComponentIndices`: the iterator after the call, and the item. -/
def next (it : WordIter) : Option (WordIter × Option (List Nat)) := do
  let it ← it.putNext
  return (it, it.last)

/-- dandy/src/nfa/words.rs:50-58 `next` of `WordComponents`. -/
def nextComponents (it : WordIter) : Option (WordIter × Option (List Str)) := do
  let it ← it.putNext
  return (it, it.last.map (fun w => w.map (fun c => it.nfa.alphabet.getD c [])))

/-- dandy/src/nfa/words.rs:19-30 `next` of `Words`: `push_str` of each element. -/
def nextString (it : WordIter) : Option (WordIter × Option Str) := do
  let it ← it.putNext
  return (it, it.last.map (fun w => w.foldl (fun s c => s ++ it.nfa.alphabet.getD c []) []))

/-- The results of the first `k` calls of a `next` function on an iterator; `none`: some call panics.
`next` of dandy/src/nfa/words.rs:19-89. -/
def calls {α : Type} (next : WordIter → Option (WordIter × Option α)) : Nat → WordIter → Option (List (Option α))
  | 0, _ => some []
  | k + 1, it => do
    let (it, r) ← next it
    let rs ← calls next k it
    return r :: rs

end WordIter

namespace Nfa

/-- The items returned by the first `k` calls of `next` on `nfa.word_component_indices()`
(dandy/src/nfa/mod.rs:1048-1050). `none`: panic. -/
def wordComponentIndices (n : Nfa) (k : Nat) : Option (List (Option (List Nat))) := do
  WordIter.calls WordIter.next k (← WordIter.new n)

/-- The items returned by the first `k` calls of `next` on `nfa.word_components()` (dandy/src/nfa/mod.rs:1035-1037). -/
def wordComponents (n : Nfa) (k : Nat) : Option (List (Option (List Str))) := do
  WordIter.calls WordIter.nextComponents k (← WordIter.new n)

/-- The items returned by the first `k` calls of `next` on `nfa.words()` (dandy/src/nfa/mod.rs:1022-1024). -/
def words (n : Nfa) (k : Nat) : Option (List (Option Str)) := do
  WordIter.calls WordIter.nextString k (← WordIter.new n)

end Nfa

end Dandy
