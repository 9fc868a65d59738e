import Verif.Proofs.WordsCost
import Verif.Props.Words
/-! # C85: enumerating words does not suffer from exponential blowups -/

namespace Dandy
open Samples WordIter

/-- **C85** Creating the iterator and taking the first `k` items does a number of elementary steps polynomial in `k` and in
the size of the NFA. -/
theorem C85_words_work (n : Nfa) (hn : n.WF) (k : Nat) : n.wordsCost k ≤ 31 * (k + 1) ^ 3 * (n.size + 1) ^ 5 := by
  unfold Nfa.wordsCost
  have h1 := newCost_le n
  have p : (n.size + 1) ^ 2 ≤ (n.size + 1) ^ 5 := Nat.pow_le_pow_right (by omega) (by omega)
  have q : (n.size + 1) ^ 5 ≤ (k + 1) ^ 3 * (n.size + 1) ^ 5 := Nat.le_mul_of_pos_left _ (by positivity)
  have key : ∀ x, x ≤ 29 * (k + 1) ^ 3 * (n.size + 1) ^ 5 → newCost n + x ≤ 31 * (k + 1) ^ 3 * (n.size + 1) ^ 5 := by
    intro x hx
    have : 31 * (k + 1) ^ 3 * (n.size + 1) ^ 5 =
      29 * (k + 1) ^ 3 * (n.size + 1) ^ 5 + 2 * ((k + 1) ^ 3 * (n.size + 1) ^ 5) := by ring
    omega
  apply key
  cases h : new n with
  | none => simp
  | some it =>
    dsimp only
    obtain ⟨h2, h3⟩ := small_new h
    have h4 := callsCost_le hn k 0 it h2 (by omega)
    have h5 : k * (29 * (0 + k) ^ 2 * (n.size + 1) ^ 5) = 29 * k ^ 3 * (n.size + 1) ^ 5 := by ring
    have h6 : 29 * k ^ 3 * (n.size + 1) ^ 5 ≤ 29 * (k + 1) ^ 3 * (n.size + 1) ^ 5 := by gcongr; omega
    omega

private theorem putNext_first {n : Nfa} (hn : n.WF) {it it' : WordIter} (hi : Small n it) (hl : it.last = none)
    (h : putNext it = some it') {w : List Nat} (hw : it'.last = some w) : w.length < n.states.length := by
  unfold putNext at h
  rw [hl] at h
  split at h
  · cases h; rw [hl] at hw; cases hw
  · dsimp only at h
    have := (cecLoop_small hn _ _ it hi _ h).2 w hw
    rw [hi.nfa] at this
    omega

private theorem after_small {n : Nfa} (hn : n.WF) {it : WordIter} (hnew : new n = some it) : ∀ j,
    Small n (after it j) ∧ ∀ w, (after it j).last = some w → w.length < j * n.states.length
  | 0 => by
    obtain ⟨h1, h2⟩ := small_new hnew
    refine ⟨h1, fun w hw => ?_⟩
    have h3 := (iterOk_new hnew).2.2
    change it.last = some w at hw
    rw [h3] at hw; cases hw
  | j + 1 => by
    obtain ⟨h1, h2⟩ := after_small hn hnew j
    have h3 := (after_ok hn (iterOk_new hnew).1 j).2
    obtain ⟨h4, h5⟩ := putNext_small hn h1 h3
    refine ⟨h4, fun w hw => ?_⟩
    rw [Nat.add_mul, Nat.one_mul]
    cases hl : (after it j).last with
    | none =>
      have := putNext_first hn h1 hl h3 hw
      omega
    | some p =>
      have := h2 p hl
      simp only [lastLen, hw, hl, Option.map_some, Option.getD_some] at h5
      omega

/-- **C85** The words do not get long quickly either: the item with index `j` has fewer than `(j + 1) * n` elements, for an
NFA with `n` states. -/
theorem C85_words_length (n : Nfa) (hn : n.WF) (k : Nat) (rs : List (Option Word)) (h : n.wordComponents k = some rs)
    (j : Nat) (w : Word) (hw : rs[j]? = some (some w)) : w.length < (j + 1) * n.states.length := by
  have he : n.hasEpsilonMoves = false := by
    by_contra hc
    unfold Nfa.wordComponents WordIter.new at h
    rw [if_pos (by simpa using hc)] at h; cases h
  obtain ⟨it, hit, h'⟩ := iterators_eq hn he
  rw [(h' k).2.1] at h
  cases h
  have hjk : j < k := by
    have := (List.getElem?_eq_some_iff.1 hw).1
    simpa using this
  rw [List.getElem?_map, List.getElem?_range hjk] at hw
  simp only [Option.map_some, Option.some.injEq, Option.map_eq_some_iff] at hw
  obtain ⟨u, h1, rfl⟩ := hw
  have := (after_small hn hit (j + 1)).2 u h1
  simpa [Nfa.comp] using this

private theorem calls_output : ∀ (k : Nat) (it : WordIter) (rs : List (Option (List Nat))), calls next k it = some rs →
    k + (rs.map (fun r => (r.map List.length).getD 0)).sum ≤ callsCost k it
  | 0, it, rs, h => by
    simp only [calls, Option.some.injEq] at h
    subst h
    simp
  | k + 1, it, rs, h => by
    rw [calls] at h
    simp only [next, Option.bind_eq_bind, Option.bind_eq_some_iff, Option.pure_def, Option.some.injEq] at h
    obtain ⟨⟨it1, r⟩, ⟨it2, h1, h2⟩, rs', h3, rfl⟩ := h
    cases h2
    have := calls_output k it1 rs' h3
    rw [callsCost, nextCost, h1]
    dsimp only
    have hp : 1 ≤ putNextCost it := by unfold putNextCost; omega
    simp only [List.map_cons, List.sum_cons]
    omega

/-- **C85** The number of steps is at least the size of the output: all calls, and all elements of all yielded words. -/
theorem C85_counts_output (n : Nfa) (k : Nat) (rs : List (Option (List Nat))) (h : n.wordComponentIndices k = some rs) :
    k + (rs.map (fun r => (r.map List.length).getD 0)).sum ≤ n.wordsCost k := by
  unfold Nfa.wordComponentIndices at h
  simp only [Option.bind_eq_bind, Option.bind_eq_some_iff] at h
  obtain ⟨it, h1, h2⟩ := h
  have := calls_output k it rs h2
  unfold Nfa.wordsCost
  rw [h1]
  dsimp only
  omega

/-- The bound, the actual numbers, and the words in a small case. -/
example : evenA.size = 16 ∧ evenA.wordsCost 5 ≤ 31 * (5 + 1) ^ 3 * (evenA.size + 1) ^ 5 ∧ evenA.wordsCost 5 = 483 ∧
    (evenA.wordComponentIndices 5).map (List.map (Option.map List.length)) = some [some 2, some 2, some 4, some 4, some 4] := by
  refine ⟨by decide, C85_words_work evenA (Nfa.wf_of_wfB (by decide)) 5, by decide +kernel, by decide +kernel⟩

/-! ## Instances of the theorems of this file -/

example := C85_words_length evenA evenA_wf 5 _ rfl 2 _ rfl

end Dandy
