import Verif.Props.TextSize
/-! # C99: how much work `to_nfa` is at least -/

namespace Dandy
open Samples RegexParser RegexTree

namespace RegexTree
mutual
/-- Each state that is made for a tree, counted once for the part it is made for and once for every part around that. Not from the code;
it is about the states moved from vector to vector in dandy/src/regex/mod.rs:215-309. -/
def moved : RegexTree → Nat
  | seq ts => stateCount (seq ts) + movedList ts
  | alt ts => stateCount (alt ts) + movedList ts
  | rep t => stateCount (rep t) + moved t
  | chr c => stateCount (chr c)
/-- The same for the parts of a tree (dandy/src/regex/mod.rs:238-259, 266-272). -/
def movedList : List RegexTree → Nat
  | [] => 0
  | t :: ts => moved t + movedList ts
end
end RegexTree

mutual
private theorem tree_least : ∀ (t : RegexTree) (c : Nat) (chars : List Str) (send : Nat), moved t ≤ treeCost t c chars send
  | .seq [], _, _, _ => by rw [moved, movedList, stateCount, stateCountList, treeCost]; simp
  | .seq (t :: ts), c, chars, send => by
    have := seq_least (t :: ts) (c + 1) chars send
    rw [moved, stateCount, treeCost, seqLoop_count]; omega
  | .alt ts, c, chars, send => by
    have := alt_least ts (c + 1) chars send
    rw [moved, stateCount, treeCost, altLoop_count]; omega
  | .rep t, c, chars, _ => by
    have := tree_least t (c + 1) chars c
    rw [moved, stateCount, treeCost, treeToNfa_count]; omega
  | .chr (.grapheme g), _, _, _ => by rw [moved, stateCount, treeCost]; omega
  | .chr .epsilon, _, _, _ => by rw [moved, stateCount, treeCost]
  | .chr .empty, _, _, _ => by rw [moved, stateCount, treeCost]
private theorem seq_least : ∀ (ts : List RegexTree) (c : Nat) (chars : List Str) (send : Nat), ts.length + movedList ts ≤ seqCost ts c chars send
  | [], _, _, _ => by rw [movedList, seqCost]; simp
  | t :: ts, c, chars, send => by
    have h1 := tree_least t (c + 1) chars c
    have h2 := seq_least ts (treeToNfa t (c + 1) chars c).counter (treeToNfa t (c + 1) chars c).chars send
    rw [movedList, seqCost, List.length_cons]; omega
private theorem alt_least : ∀ (ts : List RegexTree) (c : Nat) (chars : List Str) (send : Nat), ts.length + movedList ts ≤ altCost ts c chars send
  | [], _, _, _ => by rw [movedList, altCost]; simp
  | t :: ts, c, chars, send => by
    have h1 := tree_least t c chars send
    have h2 := alt_least ts (treeToNfa t c chars send).counter (treeToNfa t c chars send).chars send
    rw [movedList, altCost, List.length_cons]; omega
end

/-- **C99** `to_nfa` does at least a step for every state and every entry of the table that it makes, and one for every state and every part of
the expression that the state was made in. -/
theorem C99_to_nfa_least (t : RegexTree) : moved t + (toNfa t).states.length * (1 + (toNfa t).alphabet.length) ≤ toNfaCost t := by
  have h := tree_least t 2 [] 0
  have e : (toNfa t).states.length = (treeToNfa t 2 [] 0).states.length + 2 := by simp [toNfa]
  unfold toNfaCost
  simp only [← toNfa_alphabet_length]
  rw [e]
  omega

/-- An expression with nested parts; the bounds from both sides. -/
example : (regex cl1 c!"(a|b)*a(a|b)").map (fun t => (moved t, toNfaCost t)) = some (27, 126) := by decide +kernel

end Dandy
