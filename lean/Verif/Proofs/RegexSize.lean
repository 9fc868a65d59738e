import Verif.Proofs.RegexParser
/-! # The number of states of the NFA of a parsed expression -/

namespace Dandy
open RegexParser P RegexTree

namespace RegexTree
mutual
/-- The number of states made for a tree. -/
def stateCount : RegexTree → Nat
  | seq ts => 1 + ts.length + stateCountList ts
  | alt ts => 1 + stateCountList ts
  | rep t => 1 + t.stateCount
  | chr _ => 1
/-- The number of states made for some trees. -/
def stateCountList : List RegexTree → Nat
  | [] => 0
  | t :: ts => t.stateCount + stateCountList ts
end
end RegexTree

mutual
theorem treeToNfa_count : ∀ (t : RegexTree) (c : Nat) (chars : List Str) (send : Nat), (treeToNfa t c chars send).states.length = t.stateCount
  | .seq [], c, chars, send => by rw [treeToNfa, stateCount, stateCountList]; rfl
  | .seq (t :: ts), c, chars, send => by
    rw [treeToNfa, stateCount]
    simp only [List.length_cons]
    rw [seqLoop_count (t :: ts)]
    simp only [List.length_cons]; omega
  | .alt ts, c, chars, send => by
    rw [treeToNfa, stateCount]
    simp only [List.length_cons]
    rw [altLoop_count ts]; omega
  | .rep t, c, chars, send => by
    rw [treeToNfa, stateCount]
    simp only [List.length_cons]
    rw [treeToNfa_count t]; omega
  | .chr (.grapheme _), _, _, _ => by rw [treeToNfa, stateCount]; rfl
  | .chr .epsilon, _, _, _ => by rw [treeToNfa, stateCount]; rfl
  | .chr .empty, _, _, _ => by rw [treeToNfa, stateCount]; rfl

theorem seqLoop_count : ∀ (ts : List RegexTree) (c : Nat) (chars : List Str) (send : Nat),
    (seqLoop ts c chars send).states.length = ts.length + stateCountList ts
  | [], _, _, _ => by rw [seqLoop, stateCountList]; rfl
  | t :: ts, c, chars, send => by
    rw [seqLoop, stateCountList]
    simp only [List.length_cons, List.cons_append, List.length_append]
    rw [treeToNfa_count t, seqLoop_count ts]; omega

theorem altLoop_count : ∀ (ts : List RegexTree) (c : Nat) (chars : List Str) (send : Nat),
    (altLoop ts c chars send).2.states.length = stateCountList ts
  | [], _, _, _ => by rw [altLoop, stateCountList]; rfl
  | t :: ts, c, chars, send => by
    rw [altLoop, stateCountList]
    simp only [List.length_append]
    rw [treeToNfa_count t, altLoop_count ts]
end

theorem toNfa_count (t : RegexTree) : (toNfa t).states.length = t.stateCount + 2 := by
  unfold toNfa
  simp [treeToNfa_count]

/-- `n` states for `k` items are few enough for the text `u`. -/
def Few (u : Str) (n k : Nat) : Prop := ∃ x, n ≤ x * 2 ^ u.count '+' ∧ x + 3 * k ≤ 4 * u.length

theorem Few.mono {u v : Str} {n m k j : Nat} (h : Few u n k) (d : Nat) (hm : m ≤ n + d) (hc : u.count '+' ≤ v.count '+')
    (hl : d + 4 * u.length + 3 * j ≤ 4 * v.length + 3 * k) : Few v m j := by
  obtain ⟨x, h1, h2⟩ := h
  refine ⟨x + d, ?_, by omega⟩
  have h3 : (2 : Nat) ^ u.count '+' ≤ 2 ^ v.count '+' := Nat.pow_le_pow_right (by omega) hc
  have h4 : x * 2 ^ u.count '+' ≤ x * 2 ^ v.count '+' := Nat.mul_le_mul_left _ h3
  have h5 : d * 1 ≤ d * 2 ^ v.count '+' := Nat.mul_le_mul_left _ (Nat.pow_pos (by omega))
  rw [Nat.add_mul]; omega

theorem Few.append {u v : Str} {n m k j : Nat} (h : Few u n k) (h' : Few v m j) : Few (u ++ v) (n + m) (k + j) := by
  obtain ⟨x, h1, h2⟩ := h
  obtain ⟨y, h3, h4⟩ := h'
  refine ⟨x + y, ?_, by rw [List.length_append]; omega⟩
  rw [List.count_append, Nat.add_mul]
  refine Nat.add_le_add (h1.trans (Nat.mul_le_mul_left _ ?_)) (h3.trans (Nat.mul_le_mul_left _ ?_)) <;>
    exact Nat.pow_le_pow_right (by omega) (by omega)

/-- What is parsed has few states for what was read. -/
def Small (p : P RegexTree) : Prop := ∀ s t r, p s = some (t, r) → ∃ u, s = u ++ r ∧ Few u t.stateCount 1

variable {cl : Str → Nat}

theorem few_char {u : Str} (h : u ≠ []) : Few u 1 1 := by
  have := List.length_pos_iff.2 h
  refine ⟨1, ?_, by omega⟩
  rw [Nat.one_mul]
  exact Nat.pow_pos (by omega)

theorem regexChar_prefix (h : Segmentation cl) {s r : Str} {c : RegexChar} (hs : regexChar cl s = some (c, r)) :
    ∃ u, s = u ++ r ∧ u ≠ [] := by
  have hc := regexChar_consumes h _ _ _ hs
  have key : ∃ u, s = u ++ r := by
    unfold regexChar at hs
    rcases alt_some.1 hs with h1 | ⟨_, hs⟩
    · obtain ⟨a, h2, rfl⟩ := value_some.1 h1
      obtain ⟨h3, rfl⟩ := oneOf_some.1 h2
      exact ⟨[a], rfl⟩
    rcases alt_some.1 hs with h1 | ⟨_, hs⟩
    · obtain ⟨a, h2, rfl⟩ := value_some.1 h1
      obtain ⟨h3, rfl⟩ := oneOf_some.1 h2
      exact ⟨[a], rfl⟩
    rcases alt_some.1 hs with h1 | ⟨_, hs⟩
    · obtain ⟨a, m, h2, h3⟩ := preceded_some.1 h1
      obtain ⟨h4, rfl⟩ := oneOf_some.1 h2
      obtain ⟨h5, rfl, rfl⟩ := oneCluster_some.1 h3
      exact ⟨a :: m.take (cl m), by simp⟩
    · obtain ⟨h1, h2⟩ := verify_some.1 hs
      obtain ⟨h5, rfl, rfl⟩ := oneCluster_some.1 h1
      exact ⟨s.take (cl s), by simp⟩
  obtain ⟨u, rfl⟩ := key
  refine ⟨u, rfl, ?_⟩
  rintro rfl
  simp at hc

theorem itemP_small (h : Segmentation cl) {e : P RegexTree} (he : Small e) : Small (itemP cl e) := by
  intro s t r hs
  rw [itemP_eq] at hs
  obtain ⟨⟨t', o⟩, h1, rfl⟩ := map_some.1 hs
  obtain ⟨m, h2, h3⟩ := pair_some.1 h1
  have ha : ∃ u, s = u ++ m ∧ Few u t'.stateCount 1 := by
    rcases alt_some.1 h2 with h4 | ⟨_, h4⟩
    · obtain ⟨a, c, m1, m2, h5, h6, h7⟩ := delimited_some.1 h4
      obtain ⟨h8, rfl⟩ := oneOf_some.1 h5
      obtain ⟨h9, rfl⟩ := oneOf_some.1 h7
      obtain ⟨u, rfl, hu⟩ := he _ _ _ h6
      refine ⟨a :: (u ++ [c]), by simp, hu.mono 0 (Nat.le_refl _) ?_ (by simp; omega)⟩
      rw [List.count_cons, List.count_append]; omega
    · obtain ⟨c, h5, rfl⟩ := map_some.1 h4
      obtain ⟨u, h6, h7⟩ := regexChar_prefix h h5
      exact ⟨u, h6, by rw [stateCount]; exact few_char h7⟩
  obtain ⟨u, rfl, hu⟩ := ha
  rcases opt_some.1 h3 with ⟨c, h4, h5⟩ | ⟨h4, rfl, _⟩
  · simp only at h4
    subst h4
    obtain ⟨h6, rfl⟩ := oneOf_some.1 h5
    simp only [List.mem_cons, List.not_mem_nil, or_false] at h6
    refine ⟨u ++ [c], by simp, ?_⟩
    rcases h6 with rfl | rfl
    · have : applyKleene (t', some '+') = .seq [t', .rep t'] := rfl
      rw [this, stateCount, stateCountList, stateCountList, stateCountList, stateCount]
      obtain ⟨x, h7, h8⟩ := hu
      refine ⟨x + 4, ?_, by simp; omega⟩
      have e : (u ++ ['+']).count '+' = u.count '+' + 1 := by simp
      rw [e, Nat.pow_succ, Nat.add_mul, ← Nat.mul_assoc]
      have := Nat.pow_pos (n := u.count '+') (show 0 < 2 by omega)
      simp only [List.length_cons, List.length_nil]
      omega
    · have : applyKleene (t', some '*') = .rep t' := rfl
      rw [this, stateCount]
      exact hu.mono 1 (by omega) (by simp) (by simp; omega)
  · simp only at h4
    subst h4
    exact ⟨u, rfl, hu⟩

theorem chain_small {p : P RegexTree} (hp : Small p) {s r : Str} {ts : List RegexTree} (hc : Chain p s ts r) :
    ∃ u, s = u ++ r ∧ Few u (stateCountList ts) ts.length := by
  induction hc with
  | nil => exact ⟨[], rfl, 0, by rw [stateCountList]; omega, by simp⟩
  | cons h1 _ ih =>
    obtain ⟨u, rfl, hu⟩ := hp _ _ _ h1
    obtain ⟨v, rfl, hv⟩ := ih
    refine ⟨u ++ v, by simp, ?_⟩
    rw [stateCountList, List.length_cons, Nat.add_comm _ 1]
    exact hu.append hv

theorem stateCountList_single (t : RegexTree) : stateCountList [t] = t.stateCount := by
  rw [stateCountList, stateCountList]; omega

theorem sequence_small (h : Segmentation cl) {e : P RegexTree} (hce : Consumes e) (he : Small e) : Small (sequence cl e) := by
  intro s t r hs
  obtain ⟨ts, h1, rfl⟩ := map_some.1 hs
  obtain ⟨hne, hc, _⟩ := (many1_iff (itemP_consumes h hce)).1 h1
  obtain ⟨u, h2, h3⟩ := chain_small (itemP_small h he) hc
  refine ⟨u, h2, ?_⟩
  match ts, hne with
  | [t], _ => rw [stateCountList_single] at h3; exact h3
  | t :: t' :: ts, _ =>
    have : wrapMultiple .seq (t :: t' :: ts) = .seq (t :: t' :: ts) := by unfold wrapMultiple; simp
    rw [this, stateCount]
    exact h3.mono (1 + (t :: t' :: ts).length) (by omega) (by omega) (by simp only [List.length_cons]; omega)

theorem expression_small (h : Segmentation cl) : ∀ d, Small (expression cl d)
  | 0 => fun _ _ _ hs => by cases hs
  | d + 1 => by
    intro s t r hs
    obtain ⟨ts, h1, rfl⟩ := map_some.1 hs
    have hce := expression_consumes h d
    have hq := sequence_small h hce (expression_small h d)
    obtain ⟨a, as, m, rfl, h2, h3, _⟩ := (separatedList1_iff (oneOf_consumes _) (sequence_consumes h hce).shrinks).1 h1
    obtain ⟨u, rfl, hu⟩ := hq _ _ _ h2
    have hp : Small (preceded (oneOf ['|']) (sequence cl (expression cl d))) := by
      intro s t r h4
      obtain ⟨b, m1, h5, h6⟩ := preceded_some.1 h4
      obtain ⟨h7, rfl⟩ := oneOf_some.1 h5
      obtain ⟨v, rfl, hv⟩ := hq _ _ _ h6
      refine ⟨b :: v, rfl, hv.mono 0 (by omega) ?_ (by simp; omega)⟩
      rw [List.count_cons]; omega
    cases as with
    | nil =>
      cases h3
      exact ⟨u, rfl, hu⟩
    | cons a' as =>
      obtain ⟨v, rfl, hv⟩ := chain_small hp h3
      refine ⟨u ++ v, by simp, ?_⟩
      have : wrapMultiple .alt (a :: a' :: as) = .alt (a :: a' :: as) := by unfold wrapMultiple; simp
      rw [this, stateCount, stateCountList]
      exact (hu.append hv).mono 1 (by omega) (by omega) (by simp only [List.length_cons]; omega)

end Dandy
