import Verif.Model.Words
/-!
# The work done by the word iterators (dandy/src/nfa/words.rs)

How much the functions of `Verif.Model.Words` do, counted in elementary steps: one for every item that a loop or an
iterator adaptor handles (an element of a set, a row of transitions, a target, a position of the alphabet, a term of a
matrix product, an element of a word that is copied), plus one for every call. Inserting into a `HashSet` and looking up in
it count as part of the step that does it, that is, as constant (simplification). Searches that may stop early (`any`,
`all`, `find`) are counted as if they never did, so the numbers are upper bounds. The control flow is that of the model:
loops run on the sets computed there, and a part that is not reached is not counted.
-/

namespace Dandy

/-- `transitions.iter().flatten()` of one state: its rows and their targets (for example dandy/src/nfa/words.rs:140-141). -/
def Nfa.rowsCost (n : Nfa) (i : Nat) : Nat := 1 + ((n.state i).transitions.map (fun ts => 1 + ts.length)).sum

namespace WordIter

/-- Work of `n_complete` (dandy/src/nfa/words.rs:135-146): each round visits the transitions of all states of the set;
then the last set is searched. -/
def nCompleteCost (n : Nfa) (k start : Nat) : Nat :=
  1 + ((List.range k).map (fun r =>
    1 + (((List.range r).foldl (fun s _ => succs n s) [start]).map n.rowsCost).sum)).sum +
  ((List.range k).foldl (fun s _ => succs n s) [start]).length

/-- Work for `r` (dandy/src/nfa/words.rs:150-155): `n_complete` is called for every target of every state. -/
def nextRCost (n : Nfa) (cur : List Nat) (k : Nat) : Nat :=
  1 + (cur.map (fun i => n.rowsCost i + ((n.state i).transitions.flatten.map (nCompleteCost n k)).sum)).sum

/-- Work for `r` and `a` (dandy/src/nfa/words.rs:150-167): for every element of the alphabet, the targets of all states are
collected and intersected with `r`. -/
def nextACost (n : Nfa) (cur : List Nat) (k : Nat) : Nat :=
  nextRCost n cur k + ((List.range n.alphabet.length).map (fun idx =>
    1 + (cur.map (fun u => 1 + ((n.state u).transitions.getD idx []).length)).sum +
    (sofList (cur.flatMap (fun u => (n.state u).transitions.getD idx []))).length)).sum

/-- Work for `s` (dandy/src/nfa/words.rs:174-179). -/
def nextSCost (n : Nfa) (cur : List Nat) (b k : Nat) : Nat :=
  1 + (cur.map (fun i => 1 + (((n.state i).transitions.getD b []).map (fun v => 1 + nCompleteCost n k v)).sum)).sum

/-- Work of `generate_matrices_up_to` (dandy/src/nfa/words.rs:269-274): each new matrix is a product with `n` terms for
each of its `n * n` entries. -/
def generateCost (n : Nat) (adj : List BMat) (k : Nat) : Nat := 1 + (k + 1 - adj.length) * (1 + n * n * (1 + n))

/-- Work of the loop of `min_word` (dandy/src/nfa/words.rs:216-240): the search for the element goes through the alphabet,
the states, the final states and the targets; then the new set is collected and filtered. -/
def minLoopCost (it : WordIter) : Nat → List Nat → Nat
  | 0, _ => 0
  | m + 1, top =>
    match it.adj[m]? with
    | none => 0
    | some matrix =>
      1 + ((List.range it.nfa.alphabet.length).map (fun elem =>
        1 + (top.map (fun u => 1 + (it.finals.map (fun _ => 1 + ((it.nfa.state u).transitions.getD elem []).length)).sum)).sum)).sum +
      match (List.range it.nfa.alphabet.length).find? (fun elem =>
          top.any (fun u => it.finals.any (fun f =>
            ((it.nfa.state u).transitions.getD elem []).any (fun v => matrix.get v f)))) with
      | none => 0
      | some elem =>
        if m = 0 then 0
        else
          let all := top.foldl (fun set idx => sextend set ((it.nfa.state idx).transitions.getD elem [])) []
          (top.map (fun idx => 1 + ((it.nfa.state idx).transitions.getD elem []).length)).sum +
            (all.map (fun _ => 1 + it.finals.length)).sum +
            minLoopCost it m (all.filter (fun v => it.finals.any (fun f => matrix.get v f)))

/-- Work of `min_word` (dandy/src/nfa/words.rs:198-243): the matrices, the test whether there is a word, and the loop. -/
def minWordCost (it : WordIter) (n : Nat) : Nat :=
  1 + generateCost it.nfa.states.length it.adj n +
  let it := { it with adj := generateUpTo it.nfa.states.length it.adj n }
  match it.stack.head?, it.adj[n]? with
  | some top, some matrix =>
    (top.map (fun _ => 1 + it.finals.length)).sum +
    if top.all (fun a => it.finals.all (fun b => matrix.get a b == false)) then 0 else minLoopCost it n top
  | _, _ => 0

/-- Work of the loop of `next_word` (dandy/src/nfa/words.rs:148-194). -/
def nextLoopCost (word : List Nat) : Nat → WordIter → Nat
  | 0, _ => 0
  | i + 1, it =>
    match it.stack.head?, word[i]? with
    | some cur, some x =>
      let k := word.length - (i + 1)
      let a := nextA it.nfa cur k
      1 + nextACost it.nfa cur k + a.length +
      if a.all (· ≤ x) then nextLoopCost word i { it with stack := it.stack.tail }
      else
        a.length +
        match a.find? (fun a => decide (a > x)) with
        | none => 0
        | some b =>
          let s := sofList ((cur.flatMap (fun i => (it.nfa.state i).transitions.getD b [])).filter (nComplete it.nfa k))
          nextSCost it.nfa cur b k + word.length +
          if i + 1 ≠ word.length then minWordCost { it with stack := s :: it.stack } k else 0
    | _, _ => 0

/-- Work of the `while num_cec < self.nfa.states.len()` loop (dandy/src/nfa/words.rs:110-126). -/
def cecLoopCost : Nat → Nat → WordIter → Nat
  | 0, _, _ => 1
  | c + 1, len, it =>
    1 + minWordCost { it with stack := [[it.nfa.initialState]] } len +
    match minWord { it with stack := [[it.nfa.initialState]] } len with
    | some (it, none) => cecLoopCost c (len + 1) it
    | _ => 0

/-- Work of `put_next` (dandy/src/nfa/words.rs:94-127), including the copy of the last word. -/
def putNextCost (it : WordIter) : Nat :=
  1 + if it.failed then 0
  else match it.last with
    | none => cecLoopCost it.nfa.states.length 0 it
    | some last =>
      last.length + nextLoopCost last last.length it +
      match nextWord it last with
      | some (it, none) => cecLoopCost it.nfa.states.length (last.length + 1) it
      | _ => 0

/-- Work of `next` (dandy/src/nfa/words.rs:83-90): `put_next`, and the copy of the new word. The iterators over components
and strings (dandy/src/nfa/words.rs:19-30, 50-58) look up one element of the alphabet for each position instead. -/
def nextCost (it : WordIter) : Nat :=
  putNextCost it + match putNext it with
    | some it => (it.last.map List.length).getD 0
    | none => 0

/-- Work of `new` (dandy/src/nfa/words.rs:292-315) for an NFA without epsilon moves: the final states, the test for epsilon
moves, the identity matrix, and the adjacency matrix, each of whose entries searches the transitions of a state. -/
def newCost (n : Nfa) : Nat :=
  1 + 2 * n.states.length + n.states.length * n.states.length +
  ((List.range n.states.length).map (fun i => n.states.length * n.rowsCost i)).sum

/-- Work of the first `k` calls of `next`. `next` of dandy/src/nfa/words.rs:19-89. -/
def callsCost : Nat → WordIter → Nat
  | 0, _ => 0
  | k + 1, it => nextCost it + match putNext it with
    | some it => callsCost k it
    | none => 0

end WordIter

/-- Work of creating the iterator over the words of an NFA and calling `next` `k` times (dandy/src/nfa/mod.rs:1048-1050). -/
def Nfa.wordsCost (n : Nfa) (k : Nat) : Nat :=
  WordIter.newCost n + match WordIter.new n with
    | some it => WordIter.callsCost k it
    | none => 0

end Dandy
