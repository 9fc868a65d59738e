import Verif.Model.ConvCost
import Verif.Model.ParseDepth
import Verif.Proofs.RegexSize
import Verif.Proofs.Regex
import Mathlib.Tactic.Ring
/-! # Bounds on the work of `to_nfa` -/

namespace Dandy
open RegexTree

theorem graphemeIdx_grow (g : Str) (chars : List Str) :
    chars.length ≤ (graphemeIdx g chars).2.length ∧ (graphemeIdx g chars).1 < (graphemeIdx g chars).2.length := by
  unfold graphemeIdx
  split
  · rename_i h; exact ⟨Nat.le_refl _, List.idxOf_lt_length_iff.2 h⟩
  · simp

mutual
theorem tree_chars_grow : ∀ (t : RegexTree) (c : Nat) (chars : List Str) (send : Nat), chars.length ≤ (treeToNfa t c chars send).chars.length
  | .seq [], c, chars, send => by rw [treeToNfa]
  | .seq (t :: ts), c, chars, send => by rw [treeToNfa]; exact seq_chars_grow (t :: ts) (c + 1) chars send
  | .alt ts, c, chars, send => by rw [treeToNfa]; exact alt_chars_grow ts (c + 1) chars send
  | .rep t, c, chars, send => by rw [treeToNfa]; exact tree_chars_grow t (c + 1) chars c
  | .chr (.grapheme g), c, chars, _ => by rw [treeToNfa]; exact (graphemeIdx_grow g chars).1
  | .chr .epsilon, _, _, _ => by rw [treeToNfa]
  | .chr .empty, _, _, _ => by rw [treeToNfa]
theorem seq_chars_grow : ∀ (ts : List RegexTree) (c : Nat) (chars : List Str) (send : Nat), chars.length ≤ (seqLoop ts c chars send).chars.length
  | [], _, _, _ => by rw [seqLoop]
  | t :: ts, c, chars, send => by
    rw [seqLoop]
    exact (tree_chars_grow t (c + 1) chars c).trans (seq_chars_grow ts _ _ send)
theorem alt_chars_grow : ∀ (ts : List RegexTree) (c : Nat) (chars : List Str) (send : Nat), chars.length ≤ (altLoop ts c chars send).2.chars.length
  | [], _, _, _ => by rw [altLoop]
  | t :: ts, c, chars, send => by
    rw [altLoop]
    exact (tree_chars_grow t c chars send).trans (alt_chars_grow ts _ _ send)
end

theorem stateCount_pos (t : RegexTree) : 1 ≤ t.stateCount := by
  cases t <;> rw [stateCount] <;> omega

private theorem pos_calls (t : RegexTree) : 1 ≤ t.calls := by
  cases t <;> rw [calls] <;> omega

mutual
theorem tree_cost : ∀ (t : RegexTree) (c : Nat) (chars : List Str) (send k : Nat), (treeToNfa t c chars send).chars.length ≤ k →
    treeCost t c chars send ≤ t.stateCount * (3 * t.calls + k)
  | .seq [], c, chars, send, k, _ => by
    rw [treeCost, stateCount, stateCountList, calls]
    simp; omega
  | .seq (t :: ts), c, chars, send, k, h => by
    rw [treeToNfa] at h
    rw [treeCost, stateCount, calls, seqLoop_count]
    have h1 := seq_cost (t :: ts) (c + 1) chars send k h
    have h2 := pos_calls t
    have h3 : 1 ≤ callsMax (t :: ts) := by rw [callsMax]; omega
    have h4 : 1 ≤ (t :: ts).length := by simp
    generalize (t :: ts).length = m at *
    generalize stateCountList (t :: ts) = n at *
    generalize callsMax (t :: ts) = d at *
    have e : (1 + m + n) * (3 * (d + 1) + k) = n * (3 * d + k) + 3 * n + (1 + m) * (3 * d + 3 + k) := by ring
    have : (1 + m) * 6 ≤ (1 + m) * (3 * d + 3 + k) := Nat.mul_le_mul_left _ (by omega)
    omega
  | .alt ts, c, chars, send, k, h => by
    rw [treeToNfa] at h
    rw [treeCost, stateCount, calls, altLoop_count]
    have h1 := alt_cost ts (c + 1) chars send k h
    generalize stateCountList ts = n at *
    generalize callsMax ts = d at *
    have e : (1 + n) * (3 * (d + 1) + k) = n * (3 * d + k) + 3 * n + (3 * d + 3 + k) := by ring
    omega
  | .rep t, c, chars, send, k, h => by
    rw [treeToNfa] at h
    rw [treeCost, stateCount, calls, treeToNfa_count]
    have h1 := tree_cost t (c + 1) chars c k h
    generalize t.stateCount = n at *
    generalize t.calls = d at *
    have e : (1 + n) * (3 * (d + 1) + k) = n * (3 * d + k) + 3 * n + (3 * d + 3 + k) := by ring
    omega
  | .chr (.grapheme g), c, chars, _, k, h => by
    rw [treeToNfa] at h
    have := (graphemeIdx_grow g chars).2
    simp only at h
    rw [treeCost, stateCount, calls]; omega
  | .chr .epsilon, _, _, _, k, _ => by rw [treeCost, stateCount, calls]; omega
  | .chr .empty, _, _, _, k, _ => by rw [treeCost, stateCount, calls]; omega
theorem seq_cost : ∀ (ts : List RegexTree) (c : Nat) (chars : List Str) (send k : Nat), (seqLoop ts c chars send).chars.length ≤ k →
    seqCost ts c chars send ≤ ts.length + stateCountList ts * (3 * callsMax ts + k)
  | [], _, _, _, _, _ => by rw [seqCost]; omega
  | t :: ts, c, chars, send, k, h => by
    rw [seqLoop] at h
    have g := seq_chars_grow ts (treeToNfa t (c + 1) chars c).counter (treeToNfa t (c + 1) chars c).chars send
    have h1 := tree_cost t (c + 1) chars c k (g.trans h)
    have h2 := seq_cost ts (treeToNfa t (c + 1) chars c).counter (treeToNfa t (c + 1) chars c).chars send k h
    rw [seqCost, stateCountList, callsMax, Nat.add_mul, List.length_cons]
    have h3 := h1.trans (Nat.mul_le_mul_left t.stateCount (show 3 * t.calls + k ≤ 3 * max t.calls (callsMax ts) + k by omega))
    have h4 := Nat.mul_le_mul_left (stateCountList ts) (show 3 * callsMax ts + k ≤ 3 * max t.calls (callsMax ts) + k by omega)
    omega
theorem alt_cost : ∀ (ts : List RegexTree) (c : Nat) (chars : List Str) (send k : Nat), (altLoop ts c chars send).2.chars.length ≤ k →
    altCost ts c chars send ≤ stateCountList ts + stateCountList ts * (3 * callsMax ts + k)
  | [], _, _, _, _, _ => by rw [altCost]; omega
  | t :: ts, c, chars, send, k, h => by
    rw [altLoop] at h
    have g := alt_chars_grow ts (treeToNfa t c chars send).counter (treeToNfa t c chars send).chars send
    have h1 := tree_cost t c chars send k (g.trans h)
    have h2 := alt_cost ts (treeToNfa t c chars send).counter (treeToNfa t c chars send).chars send k h
    have := stateCount_pos t
    rw [altCost, stateCountList, callsMax, Nat.add_mul]
    have h3 := h1.trans (Nat.mul_le_mul_left t.stateCount (show 3 * t.calls + k ≤ 3 * max t.calls (callsMax ts) + k by omega))
    have h4 := Nat.mul_le_mul_left (stateCountList ts) (show 3 * callsMax ts + k ≤ 3 * max t.calls (callsMax ts) + k by omega)
    omega
end

mutual
theorem graphemes_count : ∀ t : RegexTree, t.graphemes.length ≤ t.stateCount
  | .seq ts => by rw [graphemes, stateCount]; have := graphemesList_count ts; omega
  | .alt ts => by rw [graphemes, stateCount]; have := graphemesList_count ts; omega
  | .rep t => by rw [graphemes, stateCount]; have := graphemes_count t; omega
  | .chr (.grapheme _) => by rw [graphemes, stateCount]; rfl
  | .chr .epsilon => by rw [graphemes, stateCount]; exact Nat.zero_le _
  | .chr .empty => by rw [graphemes, stateCount]; exact Nat.zero_le _
theorem graphemesList_count : ∀ ts : List RegexTree, (graphemesList ts).length ≤ stateCountList ts
  | [] => by rw [graphemesList, stateCountList]; rfl
  | t :: ts => by
    rw [graphemesList, stateCountList, List.length_append]
    have := graphemes_count t
    have := graphemesList_count ts
    omega
end

theorem toNfa_alphabet_length (t : RegexTree) : (toNfa t).alphabet.length = (treeToNfa t 2 [] 0).chars.length := rfl

end Dandy
