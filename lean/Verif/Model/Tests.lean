import Verif.Model.Chars
import Verif.Model.FaParser
import Verif.Model.RegexParser
import Verif.Model.Table
import Verif.Model.Validate
import Verif.Model.Words
/-!
# Model of dandy/src/tests.rs: the randomized tests of the library and their generators

A test is a function of the generated values. `some ()`: the test passes; `none`: an assertion fails or something panics.
The generators are functions of the random choices; what may be chosen is in Verif/Spec/Tests.lean.
-/

namespace Dandy
namespace PropTests

/-- The iteration orders of the hash sets and maps used by the operations under test; the first argument is the number of the call
within a test. For dandy/src/tests.rs:120-280. -/
structure Orders where
  pairs : Nat → List (Nat × Nat) → List (Nat × Nat)
  opairs : Nat → List Nfa.OPair → List Nfa.OPair
  idx : Nat → List Nat → List Nat
  row : Nat → Nat → Nat → List Nat → List Nat

/-- `assert!` (used throughout dandy/src/tests.rs). For instance dandy/src/tests.rs:136-139. -/
def check (b : Bool) : Option Unit := if b then some () else none

/-- `for test in tests.iter()`, `tests.iter().for_each` (dandy/src/tests.rs:133, 152, 188, 231, 236, 274). -/
def forEach {α : Type} (f : α → Option Unit) : List α → Option Unit
  | [] => some ()
  | a :: l => do
    f a
    forEach f l

/-- `unwrap` of a result (dandy/src/tests.rs:83, 110, 151). -/
def unwrapOk {ε α : Type} : Except ε α → Option α
  | .ok a => some a
  | .error _ => none

/-! ## `MultipleCounterIter` -/

/-- dandy/src/tests.rs:11-17 `MultipleCounterIter`. -/
structure CounterIter where
  state : List Nat
  len : Nat
  maxNumber : Nat
  hasReturned : Bool
  isFinished : Bool
deriving DecidableEq, Repr

namespace CounterIter

/-- dandy/src/tests.rs:19-29 `new`. -/
def new (length max : Nat) : CounterIter := ⟨List.replicate length 0, 0, max, false, false⟩

/-- The loop `for i in (0..self.len).rev()` (dandy/src/tests.rs:44-51): the state after it, and whether the method returns
inside the loop. The first argument is the number of iterations left. `none`: index out of bounds. -/
def bump : Nat → List Nat → Nat → Option (List Nat × Bool)
  | 0, st, _ => some (st, false)
  | i + 1, st, max => do
    let v ← st[i]?
    if v + 1 > max then bump i (st.set i 0) max
    else some (st.set i (v + 1), true)

/-- dandy/src/tests.rs:34-61 `next`: the iterator after the call, and the item. `none`: panic. -/
def next (it : CounterIter) : Option (CounterIter × Option (List Nat)) :=
  if it.isFinished then some (it, none)
  else if !it.hasReturned then some ({ it with hasReturned := true }, some [])
  else do
    let (st, returned) ← bump it.len it.state it.maxNumber
    if returned then
      if it.len > st.length then none else some ({ it with state := st }, some (st.take it.len))
    else if it.len + 1 > st.length then some ({ it with state := st, len := it.len + 1, isFinished := true }, none)
    else some ({ it with state := st, len := it.len + 1 }, some (st.take (it.len + 1)))

end CounterIter

/-! ## The tests -/

/-- dandy/src/tests.rs:64-76 `test_subset_construction`, with the contents of the two files as arguments. -/
def subsetConstruction (dfaSource nfaSource : Str) : Option Unit := do
  let dfa ← unwrapOk (Validate.dfa (← Fa.dfa dfaSource))
  let nfa ← unwrapOk (Validate.nfa (← Fa.nfa nfaSource))
  let converted ← nfa.toDfa
  check (← dfa.equivalentTo converted)

/-- dandy/src/tests.rs:79-85 `dfa_table_reparse`. -/
def dfaTableReparse (d : Dfa) : Option Unit := do
  let parsed ← unwrapOk (Validate.dfa (← Fa.dfa (← d.toTable)))
  check (d == parsed)

/-- dandy/src/tests.rs:87-94 `dfa_minimize_eq`. -/
def dfaMinimizeEq (o : Orders) (d : Dfa) : Option Unit := do
  let m ← d.minimize (o.idx 0) (o.idx 1) (o.idx 2)
  check (← m.equivalentTo d)
  check (← d.equivalentTo m)

/-- dandy/src/tests.rs:96-103 `dfa_to_nfa_to_dfa`. -/
def dfaToNfaToDfa (d : Dfa) : Option Unit := do
  let converted ← d.toNfa.toDfa
  check (← d.equivalentTo converted)
  check (← converted.equivalentTo d)

/-- dandy/src/tests.rs:106-112 `nfa_table_reparse`. -/
def nfaTableReparse (n : Nfa) : Option Unit := do
  let parsed ← unwrapOk (Validate.nfa (← Fa.nfa (← n.toTable)))
  check (n == parsed)

/-- dandy/src/tests.rs:114-121 `nfa_to_dfa_to_nfa`. -/
def nfaToDfaToNfa (n : Nfa) : Option Unit := do
  let converted := (← n.toDfa).toNfa
  check (← n.equivalentTo converted)
  check (← converted.equivalentTo n)

/-- dandy/src/tests.rs:123-141 `dfa_binary_ops`. -/
def dfaBinaryOps (seg : Str → List Str) (o : Orders) (d1 d2 : Dfa) (tests : List Str) : Option Unit := do
  let intersection ← (← Dfa.intersection (o.pairs 0) d1 d2)
  let union ← (← Dfa.union (o.pairs 1) d1 d2)
  let difference ← (← Dfa.difference (o.pairs 2) d1 d2)
  let symmetricDifference ← (← Dfa.symmetricDifference (o.pairs 3) d1 d2)
  forEach (fun test => do
    let r1 := d1.acceptsGraphemes seg test
    let r2 := d2.acceptsGraphemes seg test
    check (intersection.acceptsGraphemes seg test == (r1 && r2))
    check (union.acceptsGraphemes seg test == (r1 || r2))
    check (difference.acceptsGraphemes seg test == (r1 && !r2))
    check (symmetricDifference.acceptsGraphemes seg test == (r1 != r2))) tests

/-- dandy/src/tests.rs:143-158 `nfa_binary_ops`. -/
def nfaBinaryOps (seg : Str → List Str) (o : Orders) (n1 n2 : Nfa) (tests : List Str) : Option Unit := do
  let intersection ← (← Nfa.intersection (o.opairs 0) n1 n2)
  let union ← unwrapOk (← n1.union n2)
  forEach (fun test => do
    let r1 := n1.acceptsGraphemes seg test
    let r2 := n2.acceptsGraphemes seg test
    check (intersection.acceptsGraphemes seg test == (r1 && r2))
    check (union.acceptsGraphemes seg test == (r1 || r2))) tests

/-- dandy/src/tests.rs:160-164 `dfa_self_union`. -/
def dfaSelfUnion (o : Orders) (d : Dfa) : Option Unit := do
  let union ← (← Dfa.union (o.pairs 0) d d)
  check (← union.equivalentTo d)

/-- dandy/src/tests.rs:166-170 `dfa_self_intersection`. -/
def dfaSelfIntersection (o : Orders) (d : Dfa) : Option Unit := do
  let intersection ← (← Dfa.intersection (o.pairs 0) d d)
  check (← intersection.equivalentTo d)

/-- dandy/src/tests.rs:172-192 `dfa_inversion_tautologies`. -/
def dfaInversionTautologies (seg : Str → List Str) (o : Orders) (d : Dfa) (tests : List Str) : Option Unit := do
  let inv := d.invert
  let union ← (← Dfa.union (o.pairs 0) d inv)
  let intersection ← (← Dfa.intersection (o.pairs 1) d inv)
  check (← union.hasReachableAcceptingState)
  check (!(← intersection.hasReachableAcceptingState))
  forEach (fun test => do
    check (union.acceptsGraphemes seg test)
    check (!intersection.acceptsGraphemes seg test)) tests

/-- dandy/src/tests.rs:194-203 `nfa_remove_epsilon_transitions`. -/
def nfaRemoveEpsilonTransitions (o : Orders) (n : Nfa) : Option Unit := do
  let noEps ← n.removeEpsilonMoves (o.row 0) (o.idx 0)
  check (← n.equivalentTo noEps)
  check (noEps.states.all (fun s => s.epsilonTransitions.isEmpty))
  check (!noEps.hasEpsilonMoves)

/-- dandy/src/tests.rs:205-212 `nfa_remove_unreachable_states`. -/
def nfaRemoveUnreachableStates (o : Orders) (n : Nfa) : Option Unit := do
  let noUnr ← n.removeUnreachableStates (o.idx 0)
  check (← n.equivalentTo noUnr)

/-- The loop `while let Some(word) = iter.next()` (dandy/src/tests.rs:251-259), for at most as many rounds as the first argument
says; `none` also if the loop is not finished by then. -/
def mergeLoop : Nat → CounterIter → WordIter × Option (List Nat) → WordIter × Option (List Nat) → Option Unit
  | 0, _, _, _ => none
  | rounds + 1, iter, (iterNfa, nextNfa), (iterInv, nextInv) => do
    match ← iter.next with
    | (_, none) => some ()
    | (iter, some word) =>
      if nextNfa == some word then mergeLoop rounds iter (← iterNfa.next) (iterInv, nextInv)
      else if nextInv == some word then mergeLoop rounds iter (iterNfa, nextNfa) (← iterInv.next)
      else none

/-- dandy/src/tests.rs:214-260 `nfa_words`. In the code `take` is 100 and `length` is 3; `rounds` bounds the last loop. The
items of `words().take(100)` are those of the first 100 calls of `next` which are `Some`: after the first `None` the code stops
calling, here the remaining calls return `None` as well (C31). -/
def nfaWords (seg : Str → List Str) (o : Orders) (take length rounds : Nat) (d : Dfa) : Option Unit := do
  let nfa := d.toNfa
  let noEps ← nfa.removeEpsilonMoves (o.row 0) (o.idx 0)
  let m ← (← nfa.toDfa).minimize (o.idx 1) (o.idx 2) (o.idx 3)
  let inverse ← m.invert.toNfa.removeEpsilonMoves (o.row 1) (o.idx 4)
  forEach (fun word => do
    check (nfa.acceptsGraphemes seg word)
    check (!inverse.acceptsGraphemes seg word)) ((← noEps.words take).filterMap id)
  forEach (fun word => do
    check (!nfa.acceptsGraphemes seg word)
    check (inverse.acceptsGraphemes seg word)) ((← inverse.words take).filterMap id)
  if nfa.alphabet.length = 0 then none
  let iterNfa ← WordIter.new nfa
  let iterInv ← WordIter.new inverse
  mergeLoop rounds (CounterIter.new length (nfa.alphabet.length - 1)) (← iterNfa.next) (← iterInv.next)

/-- dandy/src/tests.rs:262-280 `regex`. `lib` is `LibRegex::new` of the crate regex (not modelled) followed by `is_match`. -/
def regexTest (cl : Str → Nat) (seg : Str → List Str) (lib : Str → Option (Str → Bool)) (o : Orders) (text : Str)
    (tests : List Str) : Option Unit := do
  let regex ← RegexParser.regex cl text
  let dfa ← (← regex.toNfa.toDfa).minimize (o.idx 0) (o.idx 1) (o.idx 2)
  let libRegex ← lib (c!"^(" ++ text ++ c!")$")
  forEach (fun test =>
    let s := test.filter (fun c => text.contains c)
    check (dfa.acceptsGraphemes seg s == libRegex s)) tests

/-- dandy/src/tests.rs:282-288 `regex_parse`. -/
def regexParse (cl : Str → Nat) (text : Str) : Option Unit := do
  let parse1 ← RegexParser.regex cl text
  let parse2 ← RegexParser.regex cl parse1.toText
  check (← parse1.toNfa.equivalentTo parse2.toNfa)

/-- dandy-cli/src/main.rs:364-386 `main1`: the code of the readme. -/
def main1 : Option Unit := do
  let dfa ← unwrapOk (Validate.dfa (← Fa.dfa c!"\n           a  b  c\n    → * s₀ s₁ s₀ s₂\n        s₁ s₂ s₁ s₁\n      * s₂ s₂ s₂ s₂\n    "))
  check (dfa.accepts [['a'], ['b'], ['c'], ['c'], ['a']])
  check (dfa.accepts [['c'], ['b'], ['a']])
  check (!dfa.accepts [['a'], ['b'], ['b'], ['c']])
  let dfa2 ← unwrapOk (Validate.dfa (← Fa.dfa c!"\n        a b c\n    → * x z x y\n      * y y y y\n        z y w z\n        w y z w\n    "))
  check (← dfa.equivalentTo dfa2)

/-! ## The generators -/

/-- dandy/src/tests.rs:366-431 `fixed_alphabet_dfa`, `dfa`: the DFA made of the names, the alphabet, the initial state, the
accepting flags and the rows. -/
def dfaOf (names alphabet : List Str) (initial : Nat) (accepting : List Bool) (rows : List (List Nat)) : Dfa :=
  { alphabet := alphabet
    states := ((names.zip (accepting.zip rows)).zipIdx).map (fun x => ⟨x.1.1, x.2 == initial, x.1.2.1, x.1.2.2⟩)
    initialState := initial }

/-- dandy/src/tests.rs:446-449, 467-470: the indices of the flags which are set (before shuffling). -/
def setFlags (flags : List Bool) : List Nat := flags.zipIdx.filterMap (fun x => if x.1 then some x.2 else none)

/-- dandy/src/tests.rs:291-364 `fixed_alphabet_nfa`, `nfa`. -/
def nfaOf (names alphabet : List Str) (initial : Nat) (accepting : List Bool) (rows : List (List (List Nat)))
    (eps : List (List Nat)) : Nfa :=
  { alphabet := alphabet
    states := ((names.zip (accepting.zip (rows.zip eps))).zipIdx).map
      (fun x => ⟨x.1.1, x.2 == initial, x.1.2.1, x.1.2.2.2, x.1.2.2.1⟩)
    initialState := initial }

/-- dandy/src/tests.rs:318, 389: the elements of a range of characters (before shuffling). -/
def charRange (lo hi : Char) : List Str := (List.range (hi.toNat + 1 - lo.toNat)).map (fun i => [Char.ofNat (lo.toNat + i)])

/-- `vec.join("|")` (dandy/src/tests.rs:521). -/
def joinBar : List Str → Str
  | [] => []
  | [t] => t
  | t :: ts => t ++ '|' :: joinBar ts

end PropTests
end Dandy
