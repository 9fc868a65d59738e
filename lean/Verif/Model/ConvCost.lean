import Verif.Model.Regex
import Verif.Model.AlgCost
/-!
# The work of turning a regular expression into an NFA (dandy/src/regex/mod.rs)

Counted as in `Verif.Model.AlgCost`: one step for every call, for every item that a loop handles and for every element that is moved or made; looking up
an element in the map is one step, as is making a name (simplification).
-/

namespace Dandy
namespace RegexTree

mutual

/-- Work of `tree_to_nfa` (dandy/src/regex/mod.rs:215-309). The states of the parts are collected and then appended to a new vector (`Sequence`, `Alt`),
or only appended (`Repeat`); for an element a vector with as many empty sets as its index is made. -/
def treeCost : RegexTree → Nat → List Str → Nat → Nat
  | seq ts, c, chars, sendTo =>
    match ts with
    | [] => 1
    | t :: ts => 1 + seqCost (t :: ts) (c + 1) chars sendTo + 2 * (seqLoop (t :: ts) (c + 1) chars sendTo).states.length
  | alt ts, c, chars, sendTo => 1 + altCost ts (c + 1) chars sendTo + 2 * (altLoop ts (c + 1) chars sendTo).2.states.length
  | rep t, c, chars, _ => 1 + treeCost t (c + 1) chars c + (treeToNfa t (c + 1) chars c).states.length
  | chr (.grapheme g), _, chars, _ => 3 + (graphemeIdx g chars).1
  | chr .epsilon, _, _, _ => 1
  | chr .empty, _, _, _ => 1

/-- Work for the parts of a sequence (dandy/src/regex/mod.rs:238-259). -/
def seqCost : List RegexTree → Nat → List Str → Nat → Nat
  | [], _, _, _ => 0
  | t :: ts, c, chars, sendTo =>
    let b := treeToNfa t (c + 1) chars c
    1 + treeCost t (c + 1) chars c + seqCost ts b.counter b.chars sendTo

/-- Work for the alternatives (dandy/src/regex/mod.rs:266-272). -/
def altCost : List RegexTree → Nat → List Str → Nat → Nat
  | [], _, _, _ => 0
  | t :: ts, c, chars, sendTo =>
    let b := treeToNfa t c chars sendTo
    1 + treeCost t c chars sendTo + altCost ts b.counter b.chars sendTo

end

/-- Work of `Regex::to_nfa` (dandy/src/regex/mod.rs:104-155): the states of the tree, appended to the first two; the row of every state made as long as the
alphabet; the map of elements collected, sorted and mapped. -/
def toNfaCost (t : RegexTree) : Nat :=
  let b := treeToNfa t 2 [] 0
  3 + treeCost t 2 [] 0 + b.states.length + (b.states.length + 2) * (1 + b.chars.length) +
    b.chars.length + sortCost b.chars.length + b.chars.length

end RegexTree
end Dandy
