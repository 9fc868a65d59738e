import Verif.Model.Types
/-!
# Shared building blocks: std collections and loop shapes
-/

namespace Dandy

/-- `usize::to_string` / `format!("{idx}")`: decimal digits. Called at dandy/src/dfa/mod.rs:512,
dandy/src/nfa/mod.rs:398, dandy/src/nfa/mod.rs:621, dandy/src/nfa/mod.rs:943,
dandy/src/nfa/mod.rs:1110. -/
def numStr (n : Nat) : Str := Nat.toDigits 10 n

/-- Lookup in a `HashMap` built by `.enumerate().map(|(idx, k)| (k, idx)).collect()`:
the index of the *last* occurrence of the key (a later insert overwrites an earlier one).
`i` is the index of the head of the list. dandy/src/dfa/eval.rs:74, dandy/src/dfa/parse.rs:40,
dandy/src/nfa/eval.rs:96, dandy/src/nfa/parse.rs:35-52. -/
def revGetFrom {α : Type} [DecidableEq α] : Nat → List α → α → Option Nat
  | _, [], _ => none
  | i, a :: as, e =>
    match revGetFrom (i + 1) as e with
    | some j => some j
    | none => if a = e then some i else none

/-- See `revGetFrom`. Used for `rev_map` (dandy/src/dfa/eval.rs:71-76, dandy/src/nfa/eval.rs:93-98) and
`rev_state_idx_map` (dandy/src/dfa/mod.rs:519-523, dandy/src/nfa/mod.rs:628-632). -/
def revGet {α : Type} [DecidableEq α] (l : List α) (e : α) : Option Nat := revGetFrom 0 l e

/-- `HashSet<usize>::insert`. A set of indices is modelled by its strictly increasing list of elements.
Used for the sets in dandy/src/nfa/eval.rs:10, dandy/src/dfa/mod.rs:618-643,
dandy/src/dfa/mod.rs:714, dandy/src/nfa/mod.rs:993, dandy/src/nfa/mod.rs:1170. -/
def sins (x : Nat) : List Nat → List Nat
  | [] => [x]
  | y :: ys => if x < y then x :: y :: ys else if x = y then y :: ys else y :: sins x ys

/-- `HashSet<usize>::extend`. Called at dandy/src/nfa/eval.rs:86, dandy/src/nfa/mod.rs:773,
dandy/src/nfa/mod.rs:856, dandy/src/nfa/words.rs:233. -/
def sextend (s : List Nat) (l : List Nat) : List Nat := l.foldl (fun s x => sins x s) s

/-- `.collect::<HashSet<usize>>()`. Called at dandy/src/dfa/mod.rs:631, dandy/src/dfa/mod.rs:642,
dandy/src/nfa/mod.rs:391, dandy/src/nfa/mod.rs:810, dandy/src/nfa/words.rs:155,
dandy/src/nfa/words.rs:164, dandy/src/nfa/words.rs:179. -/
def sofList (l : List Nat) : List Nat := sextend [] l

/-- The filter-by-insert step of the level-wise searches (`if all.insert(t) { new.push(t) }`,
dandy/src/nfa/mod.rs:1175-1181; `.filter(|&state| reachables.insert(state)).collect()`,
dandy/src/dfa/mod.rs:717-721, dandy/src/nfa/mod.rs:996-1008). -/
def addNew : List Nat → List Nat × List Nat → List Nat × List Nat
  | [], p => p
  | t :: ts, (all, new) => if t ∈ all then addNew ts (all, new) else addNew ts (sins t all, new ++ [t])

/-- The level-wise search loop shared by `Nfa::closure` (dandy/src/nfa/mod.rs:1170-1183),
`Dfa::reachable_state_idx` (dandy/src/dfa/mod.rs:714-723) and `Nfa::reachable_state_idx`
(dandy/src/nfa/mod.rs:993-1010). First argument: fuel. `none`: out of fuel, or `succ` panicked.
Simplification: the hash set `new_states` is kept as a list in order of discovery; the order in which it is drained
only influences the order of the next `new_states`. -/
def bfs (succ : Nat → Option (List Nat)) : Nat → List Nat → List Nat → Option (List Nat)
  | 0, _, _ => none
  | k + 1, all, new =>
    if new = [] then some all
    else match new.mapM succ with
      | none => none
      | some ls => let p := addNew ls.flatten (all, []); bfs succ k p.1 p.2

/-- The inner `for` loop of the stack based explorations: every successor whose key is new is recorded as seen
and pushed (dandy/src/dfa/mod.rs:475-485, 920-928; dandy/src/nfa/mod.rs:1083-1094, 1258-1269, 516-589).
The head of the list `stack` is the end of the Rust `Vec`; `seen` is in order of insertion. -/
def pushNew {σ κ : Type} [DecidableEq κ] (key : σ → κ) : List σ → List σ × List σ → List σ × List σ
  | [], p => p
  | t :: ts, (stack, seen) =>
    if key t ∈ seen.map key then pushNew key ts (stack, seen)
    else pushNew key ts (t :: stack, seen ++ [t])

/-- The outer `while let Some(s) = stack.pop()` loop of the stack based explorations. First argument: fuel.
`none`: out of fuel; `some none`: left early through `return false` because `ok` failed;
`some (some (out, seen))`: the popped items in order, and all items in order of discovery.
dandy/src/dfa/mod.rs:467, dandy/src/dfa/mod.rs:907, dandy/src/nfa/mod.rs:502,
dandy/src/nfa/mod.rs:1245 and the loops after these lines. -/
def explore {σ κ : Type} [DecidableEq κ] (key : σ → κ) (succ : σ → List σ) (ok : σ → Bool) :
    Nat → List σ → List σ → List σ → Option (Option (List σ × List σ))
  | 0, _, _, _ => none
  | _ + 1, [], seen, out => some (some (out, seen))
  | k + 1, s :: stack, seen, out =>
    if ok s then
      let p := pushNew key (succ s) (stack, seen)
      explore key succ ok k p.1 p.2 (out ++ [s])
    else some none

/-- `slice::binary_search` on a sorted duplicate free slice: `ok` position, or `error` insertion position
(contract of the std function, not its implementation). Called at dandy/src/dfa/mod.rs:746,
dandy/src/dfa/mod.rs:759, dandy/src/nfa/mod.rs:899, dandy/src/nfa/mod.rs:912. -/
def binarySearch (l : List Nat) (x : Nat) : Except Nat Nat :=
  if x ∈ l then .ok (l.idxOf x) else .error (l.countP (· < x))

/-- `Vec::remove`; `none` is the panic for an index out of range. Called at
dandy/src/dfa/mod.rs:754-755, dandy/src/nfa/mod.rs:907-908. -/
def vecRemove {α : Type} (l : List α) (i : Nat) : Option (List α) :=
  if i < l.length then some (l.eraseIdx i) else none

/-- `to_remove.iter().rev().for_each(|&idx| v.remove(idx))` (dandy/src/dfa/mod.rs:753-756,
dandy/src/nfa/mod.rs:906-909), for a list given already in reversed order. -/
def vecRemoveAll {α : Type} : List Nat → List α → Option (List α)
  | [], l => some l
  | i :: is, l => (vecRemove l i).bind (vecRemoveAll is)

/-- dandy/src/util.rs:4-13 `alphabet_equal`: equal length and equal as sets. -/
def alphabetEqual (a b : List Str) : Bool :=
  if a.length ≠ b.length then false
  else a.all (· ∈ b) && b.all (· ∈ a)

/-- The `map_while` of the name generation (dandy/src/dfa/mod.rs:496-507, dandy/src/nfa/mod.rs:604-616):
stop at the first name that was already used. `hm` are the names used so far. -/
def takeNames {κ : Type} (nameOf : κ → Str) : List κ → List Str → List (κ × Str)
  | [], _ => []
  | k :: ks, hm => if nameOf k ∈ hm then [] else (k, nameOf k) :: takeNames nameOf ks (nameOf k :: hm)

/-- Name generation for product constructions (dandy/src/dfa/mod.rs:495-517, dandy/src/nfa/mod.rs:603-626).
`l` is the hash set of explored pairs in iteration order (the same both times, as the set is not modified). -/
def genNames {κ : Type} (nameOf : κ → Str) (l : List κ) (count : Nat) : List (κ × Str) :=
  let pot := takeNames nameOf l []
  if pot.length < count then l.zipIdx.map (fun p => (p.1, numStr p.2)) else pot

end Dandy
