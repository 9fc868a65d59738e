import Verif.Spec.DrawLevels
import Verif.Proofs.Draw
import Mathlib.Tactic.Ring
/-! # The number of levels of a drawing (for C107) -/

namespace Dandy
namespace Draw

section levels
variable {α : Type} {left right : α → Nat}

theorem countP_two {β : Type} {P Q R : β → Bool} (l : List β) (h : ∀ b, P b = true → Q b = false) (hP : ∀ b, P b = true → R b = true)
    (hQ : ∀ b, Q b = true → R b = true) : l.countP P + l.countP Q ≤ l.countP R := by
  induction l with
  | nil => exact Nat.le_refl _
  | cons b l ih =>
    rw [List.countP_cons, List.countP_cons, List.countP_cons]
    cases hp : P b with
    | true => rw [h b hp, hP b hp]; simp; omega
    | false =>
      cases hq : Q b with
      | true => rw [hQ b hq]; simp; omega
      | false => simp; omega

/-- As many items as there are levels on which there is one. -/
theorem levels_le_countP {placed : List (PlacedArrow α)} {P : PlacedArrow α → Bool} (j n : Nat)
    (h : ∀ l, j ≤ l → l < j + n → ∃ p ∈ placed, p.level = l ∧ P p = true) :
    n ≤ placed.countP (fun p => P p && decide (j ≤ p.level) && decide (p.level < j + n)) := by
  have h1 : List.range' j n ⊆ (placed.filter (fun p => P p && decide (j ≤ p.level) && decide (p.level < j + n))).map (·.level) := by
    intro l hl
    obtain ⟨h2, h3⟩ := List.mem_range'_1.1 hl
    obtain ⟨p, hp, h4, h5⟩ := h l h2 h3
    refine List.mem_map.2 ⟨p, List.mem_filter.2 ⟨hp, ?_⟩, h4⟩
    rw [h4, h5]
    simp [h2, h3]
  have h2 := (List.subperm_of_subset List.nodup_range' h1).length_le
  rw [List.length_range', List.length_map] at h2
  rw [List.countP_eq_length_filter]
  exact h2

/-- The argument for the bound: what is blocked by something inside of it is covered once more there. -/
theorem levels_nested {placed : List (PlacedArrow α)} (lo hi : α → Nat) (m : Nat)
    (hlh : ∀ p ∈ placed, lo p.arrow < hi p.arrow)
    (hm : ∀ x, placed.countP (fun p => decide (lo p.arrow ≤ x) && decide (x < hi p.arrow)) ≤ m)
    (hb : ∀ q ∈ placed, ∀ l < q.level, ∃ p ∈ placed, p.level = l ∧
      ((lo p.arrow ≤ lo q.arrow ∧ lo q.arrow < hi p.arrow) ∨ (lo q.arrow ≤ lo p.arrow ∧ hi p.arrow ≤ hi q.arrow))) :
    ∀ k t, t + k = m → ∀ q ∈ placed,
      (∀ x, lo q.arrow ≤ x → x < hi q.arrow →
        t ≤ placed.countP (fun p => (decide (lo p.arrow ≤ x) && decide (x < hi p.arrow)) && decide (q.level < p.level))) →
      2 * (q.level + 1) ≤ k * (k + 1) := by
  intro k
  induction k with
  | zero =>
    intro t ht q hq hc
    exfalso
    have h1 := hc (lo q.arrow) (Nat.le_refl _) (hlh q hq)
    have h2 := hm (lo q.arrow)
    have h3 := countP_two (P := fun p : PlacedArrow α =>
        (decide (lo p.arrow ≤ lo q.arrow) && decide (lo q.arrow < hi p.arrow)) && decide (q.level < p.level))
      (Q := fun p => (decide (lo p.arrow ≤ lo q.arrow) && decide (lo q.arrow < hi p.arrow)) && decide (p.level = q.level))
      (R := fun p => decide (lo p.arrow ≤ lo q.arrow) && decide (lo q.arrow < hi p.arrow)) placed
      (fun p hp => by simp only [Bool.and_eq_true, decide_eq_true_eq] at hp; simp; omega)
      (fun p hp => (Bool.and_eq_true_iff.1 hp).1) (fun p hp => (Bool.and_eq_true_iff.1 hp).1)
    have h4 : 0 < placed.countP (fun p => (decide (lo p.arrow ≤ lo q.arrow) && decide (lo q.arrow < hi p.arrow)) && decide (p.level = q.level)) :=
      List.countP_pos_iff.2 ⟨q, hq, by simp [hlh q hq]⟩
    omega
  | succ k ih =>
    intro t ht q hq hc
    -- the levels below `q` from `j` on have something at the left end of `q`
    obtain ⟨j, hj, hcov, hin⟩ : ∃ j ≤ q.level, (∀ l, j ≤ l → l < q.level → ∃ p ∈ placed, p.level = l ∧
          (decide (lo p.arrow ≤ lo q.arrow) && decide (lo q.arrow < hi p.arrow)) = true) ∧
        (j = 0 ∨ ∃ b ∈ placed, b.level + 1 = j ∧ lo q.arrow ≤ lo b.arrow ∧ hi b.arrow ≤ hi q.arrow) := by
      suffices ∀ n ≤ q.level, ∃ j ≤ q.level, (∀ l, j ≤ l → l < q.level → ∃ p ∈ placed, p.level = l ∧
          (decide (lo p.arrow ≤ lo q.arrow) && decide (lo q.arrow < hi p.arrow)) = true) ∧
          (j ≤ q.level - n ∨ ∃ b ∈ placed, b.level + 1 = j ∧ lo q.arrow ≤ lo b.arrow ∧ hi b.arrow ≤ hi q.arrow) by
        obtain ⟨j, h1, h2, h3⟩ := this q.level (Nat.le_refl _)
        refine ⟨j, h1, h2, h3.imp_left (fun h => by omega)⟩
      intro n
      induction n with
      | zero => exact fun _ => ⟨q.level, Nat.le_refl _, fun l h1 h2 => by omega, .inl (Nat.le_refl _)⟩
      | succ n ihn =>
        intro hn
        obtain ⟨j, h1, h2, h3⟩ := ihn (by omega)
        rcases h3 with h3 | h3
        · by_cases hj : j ≤ q.level - (n + 1)
          · exact ⟨j, h1, h2, .inl hj⟩
          · obtain ⟨p, hp, e1, e2⟩ := hb q hq (q.level - (n + 1)) (by omega)
            rcases e2 with e2 | e2
            · refine ⟨q.level - (n + 1), by omega, fun l h4 h5 => ?_, .inl (Nat.le_refl _)⟩
              by_cases hl : l = q.level - (n + 1)
              · exact ⟨p, hp, by rw [e1, hl], by simp [e2]⟩
              · exact h2 l (by omega) h5
            · exact ⟨j, h1, h2, .inr ⟨p, hp, by omega, e2⟩⟩
        · exact ⟨j, h1, h2, .inr h3⟩
    have h1 := hc (lo q.arrow) (Nat.le_refl _) (hlh q hq)
    have h2 := hm (lo q.arrow)
    have h3 := countP_two (P := fun p : PlacedArrow α =>
        (decide (lo p.arrow ≤ lo q.arrow) && decide (lo q.arrow < hi p.arrow)) && decide (q.level < p.level))
      (Q := fun p => (decide (lo p.arrow ≤ lo q.arrow) && decide (lo q.arrow < hi p.arrow)) && decide (p.level ≤ q.level))
      (R := fun p => decide (lo p.arrow ≤ lo q.arrow) && decide (lo q.arrow < hi p.arrow)) placed
      (fun p hp => by simp only [Bool.and_eq_true, decide_eq_true_eq] at hp; simp; omega)
      (fun p hp => (Bool.and_eq_true_iff.1 hp).1) (fun p hp => (Bool.and_eq_true_iff.1 hp).1)
    have h4 := countP_two
      (P := fun p : PlacedArrow α => (decide (lo p.arrow ≤ lo q.arrow) && decide (lo q.arrow < hi p.arrow)) && decide (p.level = q.level))
      (Q := fun p => (decide (lo p.arrow ≤ lo q.arrow) && decide (lo q.arrow < hi p.arrow)) && decide (j ≤ p.level) &&
        decide (p.level < j + (q.level - j)))
      (R := fun p => (decide (lo p.arrow ≤ lo q.arrow) && decide (lo q.arrow < hi p.arrow)) && decide (p.level ≤ q.level)) placed
      (fun p hp => by simp only [Bool.and_eq_true, decide_eq_true_eq] at hp; simp; omega)
      (fun p hp => by simp only [Bool.and_eq_true, decide_eq_true_eq] at hp ⊢; omega)
      (fun p hp => by simp only [Bool.and_eq_true, decide_eq_true_eq] at hp ⊢; omega)
    have h5 : 0 < placed.countP (fun p => (decide (lo p.arrow ≤ lo q.arrow) && decide (lo q.arrow < hi p.arrow)) && decide (p.level = q.level)) :=
      List.countP_pos_iff.2 ⟨q, hq, by simp [hlh q hq]⟩
    have h6 := levels_le_countP (placed := placed) (P := fun p => decide (lo p.arrow ≤ lo q.arrow) && decide (lo q.arrow < hi p.arrow)) j
      (q.level - j) (fun l e1 e2 => hcov l e1 (by omega))
    have h7 : q.level - j + 1 ≤ k + 1 := by omega
    have e : (k + 1) * (k + 1 + 1) = k * (k + 1) + 2 * (k + 1) := by ring
    rcases hin with rfl | ⟨b, hb1, hb2, hb3, hb4⟩
    · omega
    · have h8 := ih (t + 1) (by omega) b hb1 (fun x hx1 hx2 => by
        have h9 := hc x (by omega) (by omega)
        have h10 := countP_two
          (P := fun p : PlacedArrow α => (decide (lo p.arrow ≤ x) && decide (x < hi p.arrow)) && decide (q.level < p.level))
          (Q := fun p => (decide (lo p.arrow ≤ x) && decide (x < hi p.arrow)) && decide (p.level = q.level))
          (R := fun p => (decide (lo p.arrow ≤ x) && decide (x < hi p.arrow)) && decide (b.level < p.level)) placed
          (fun p hp => by simp only [Bool.and_eq_true, decide_eq_true_eq] at hp; simp; omega)
          (fun p hp => by simp only [Bool.and_eq_true, decide_eq_true_eq] at hp ⊢; omega)
          (fun p hp => by simp only [Bool.and_eq_true, decide_eq_true_eq] at hp ⊢; omega)
        have h11 : 0 < placed.countP (fun p => (decide (lo p.arrow ≤ x) && decide (x < hi p.arrow)) && decide (p.level = q.level)) :=
          List.countP_pos_iff.2 ⟨q, hq, by simp; omega⟩
        omega)
      omega

/-- A pass places at least as many arrows as there are in a row, if what ends no later than one of them does not reach to the next. -/
theorem pass_most (depth : Nat) : ∀ (q : List α) (e : Nat) (ss : List α), q.Pairwise (fun x y => right x ≤ right y) → (∀ a ∈ q, left a ≤ right a) →
    (∀ s ∈ ss, s ∈ q) → (∀ s ∈ ss, e ≤ left s) →
    ss.Pairwise (fun a b => right a < right b ∧ ∀ g ∈ q, right g ≤ right a → (if left g = right g then right g + 1 else right g) ≤ left b) →
    ss.length ≤ (pass left right depth e q).1.length
  | [], e, ss, _, _, hm, _, _ => by
    cases ss with
    | nil => exact Nat.zero_le _
    | cons s ss => cases hm s List.mem_cons_self
  | a :: as, e, ss, hs, hl, hm, he, hc => by
    obtain ⟨hs1, hs2⟩ := List.pairwise_cons.1 hs
    have hl' : ∀ a ∈ as, left a ≤ right a := fun x hx => hl x (List.mem_cons_of_mem _ hx)
    by_cases h : left a ≥ e
    · have hlen : ∀ s ∈ ss, right a ≤ right s := fun s hs => by
        rcases List.mem_cons.1 (hm s hs) with rfl | h
        · exact Nat.le_refl _
        · exact hs1 s h
      cases ss with
      | nil => exact Nat.zero_le _
      | cons s ss =>
        obtain ⟨hc1, hc2⟩ := List.pairwise_cons.1 hc
        have ih := pass_most depth as (if left a = right a then right a + 1 else right a) ss hs2 hl'
          (fun x hx => by
            rcases List.mem_cons.1 (hm x (List.mem_cons_of_mem _ hx)) with rfl | h
            · have := (hc1 x hx).1; have := hlen s List.mem_cons_self; omega
            · exact h)
          (fun x hx => (hc1 x hx).2 a List.mem_cons_self (hlen s List.mem_cons_self))
          (hc2.imp (fun h => ⟨h.1, fun g hg => h.2 g (List.mem_cons_of_mem _ hg)⟩))
        simp only [pass, h, ↓reduceIte, List.length_cons]
        omega
    · have ih := pass_most depth as e ss hs2 hl'
        (fun x hx => by
          rcases List.mem_cons.1 (hm x hx) with rfl | h'
          · exact absurd (he x hx) h
          · exact h')
        he (hc.imp (fun h => ⟨h.1, fun g hg => h.2 g (List.mem_cons_of_mem _ hg)⟩))
      simp only [pass, h, ↓reduceIte]
      exact ih

/-- The same for every level, with what is on this and the higher levels. -/
theorem placeLoop_most : ∀ (fuel depth : Nat) (unplaced : List α) (placed res : List (PlacedArrow α)) (levels : Nat),
    unplaced.Pairwise (fun x y => right y ≤ right x) → (∀ a ∈ unplaced, left a ≤ right a) →
    placeLoop left right fuel depth unplaced placed = some (res, levels) →
    ∃ rest, res = placed ++ rest ∧ (∀ p ∈ rest, depth ≤ p.level ∧ p.arrow ∈ unplaced) ∧
      ∀ l ≥ depth, ∀ ss : List α, (∀ s ∈ ss, ∃ p ∈ rest, p.arrow = s ∧ l ≤ p.level) →
        ss.Pairwise (fun a b => right a < right b ∧ ∀ g ∈ unplaced, right g ≤ right a → (if left g = right g then right g + 1 else right g) ≤ left b) →
        ss.length ≤ rest.countP (fun p => p.level = l)
  | 0, _, _, _, _, _, _, _, h => by cases h
  | fuel + 1, depth, unplaced, placed, res, levels, hs, hl, h => by
    rw [placeLoop] at h
    split at h
    · cases h
      refine ⟨[], by simp, by simp, ?_⟩
      intro l _ ss hss _
      cases ss with
      | nil => exact Nat.zero_le _
      | cons s ss => obtain ⟨_, h, _⟩ := hss s List.mem_cons_self; cases h
    · have hs' : unplaced.reverse.Pairwise (fun x y => right x ≤ right y) := List.pairwise_reverse.2 hs
      have hl' : ∀ a ∈ unplaced.reverse, left a ≤ right a := fun a ha => hl a (List.mem_reverse.1 ha)
      obtain ⟨e1, e2, e3, _, _⟩ := pass_spec depth unplaced.reverse 0 hs' hl'
      have e4 := fun ss => pass_most depth unplaced.reverse 0 ss hs' hl'
      generalize pass left right depth 0 unplaced.reverse = r at h e1 e2 e3 e4
      obtain ⟨now, later⟩ := r
      dsimp only at h e1 e2 e3 e4
      obtain ⟨rest, g1, g2, g3⟩ := placeLoop_most fuel (depth + 1) later.reverse (placed ++ now) res levels
        (List.pairwise_reverse.2 (hs'.sublist e2)) (fun a ha => hl' a (e2.subset (List.mem_reverse.1 ha))) h
      refine ⟨now ++ rest, by rw [g1, List.append_assoc], ?_, ?_⟩
      · intro p hp
        rcases List.mem_append.1 hp with hp | hp
        · exact ⟨(e3 p hp).1.ge, List.mem_reverse.1 (e3 p hp).2.1⟩
        · exact ⟨by have := (g2 p hp).1; omega, List.mem_reverse.1 (e2.subset (List.mem_reverse.1 (g2 p hp).2))⟩
      · intro l hld ss hss hc
        rw [List.countP_append]
        by_cases hd : l = depth
        · subst hd
          have h1 := e4 ss (fun s h => by
              obtain ⟨p, hp, rfl, _⟩ := hss s h
              rcases List.mem_append.1 hp with hp | hp
              · exact (e3 p hp).2.1
              · exact e2.subset (List.mem_reverse.1 (g2 p hp).2)) (fun _ _ => Nat.zero_le _)
            (hc.imp (fun h => ⟨h.1, fun g hg => h.2 g (List.mem_reverse.1 hg)⟩))
          have h2 : now.countP (fun p => p.level = l) = now.length := List.countP_eq_length.2 (fun p hp => by simp [(e3 p hp).1])
          omega
        · have h1 := g3 l (by omega) ss (fun s h => by
              obtain ⟨p, hp, rfl, hl⟩ := hss s h
              rcases List.mem_append.1 hp with hp | hp
              · have := (e3 p hp).1; omega
              · exact ⟨p, hp, rfl, hl⟩)
            (hc.imp (fun h => ⟨h.1, fun g hg => h.2 g (List.mem_reverse.1 (e2.subset (List.mem_reverse.1 hg)))⟩))
          omega

theorem placeArrows_most (as : List α) (hl : ∀ a ∈ as, left a ≤ right a) {placed : List (PlacedArrow α)} {levels : Nat}
    (h : placeArrows left right as = some (placed, levels)) (l : Nat) (ss : List α) (hss : ∀ s ∈ ss, ∃ p ∈ placed, p.arrow = s ∧ l ≤ p.level)
    (hc : ss.Pairwise (fun a b => right a < right b ∧ ∀ g ∈ as, right g ≤ right a → (if left g = right g then right g + 1 else right g) ≤ left b)) :
    ss.length ≤ placed.countP (fun p => p.level = l) := by
  have hp := sortArrows_perm (right := right) as
  obtain ⟨rest, h1, _, h3⟩ := placeLoop_most _ _ _ _ _ _ (sortArrows_sorted as) (fun a ha => hl a (hp.mem_iff.1 ha)) h
  rw [List.nil_append] at h1
  subst h1
  exact h3 l (Nat.zero_le _) ss hss (hc.imp (fun h => ⟨h.1, fun g hg => h.2 g (hp.mem_iff.1 hg)⟩))

end levels

end Draw
end Dandy
