import Verif.Spec.DrawLevels
import Verif.Proofs.DrawLevels
import Verif.Props.Draw
import Verif.Props.Samples
import Mathlib.Data.List.Permutation
/-! # C107: the height of a drawing -/

namespace Dandy
open Draw Samples

/-- **C107** However arrows are drawn without overlaps, there are at least as many levels as arrows passing between a state and the
next. -/
theorem C107_at_least {α : Type} (left right : α → Nat) (as : List α) (placed : List (PlacedArrow α)) (levels : Nat)
    (h : Arranged left right as placed levels) (x : Nat) : as.countP (Passes left right x) ≤ levels := by
  rw [← h.each.countP_eq, List.countP_map, List.countP_eq_length_filter]
  have h1 : ((placed.filter (Passes left right x ∘ (·.arrow))).map (·.level)).Nodup := by
    rw [List.nodup_iff_pairwise_ne, List.pairwise_map]
    refine List.Pairwise.imp_of_mem ?_ (h.apart.sublist List.filter_sublist)
    intro p q hp hq hb he
    have h2 := (List.mem_filter.1 hp).2
    have h3 := (List.mem_filter.1 hq).2
    simp only [Passes, Function.comp_apply, Bool.and_eq_true, decide_eq_true_eq] at h2 h3
    have := (hb he).1
    omega
  have h2 : (placed.filter (Passes left right x ∘ (·.arrow))).map (·.level) ⊆ List.range levels := by
    intro l hl
    obtain ⟨p, hp, rfl⟩ := List.mem_map.1 hl
    exact List.mem_range.2 (h.below p (List.mem_filter.1 hp).1)
  have h3 := (List.subperm_of_subset h1 h2).length_le
  rwa [List.length_map, List.length_range] at h3

private theorem arranged_of {α : Type} {left right : α → Nat} {as : List α} {placed : List (PlacedArrow α)} {levels : Nat}
    (h : Placement left right as placed levels) : Arranged left right as placed levels := ⟨h.each, h.below, h.apart⟩

example : Arranged (α := Nat × Nat) (·.1) (·.2) [(0, 2), (1, 3), (3, 3), (2, 5)] [⟨(0, 2), 1⟩, ⟨(2, 5), 1⟩, ⟨(1, 3), 0⟩, ⟨(3, 3), 2⟩] 3 ∧
    [(0, 2), (1, 3), (3, 3), (2, 5)].countP (Passes (α := Nat × Nat) (·.1) (·.2) 1) = 2 :=
  ⟨⟨by decide, by decide, by simp [Before]⟩, by decide⟩

/-- **C107** If at most `m` arrows touch each state, at most `m (m + 1) / 2` levels are used. -/
theorem C107_at_most {α : Type} (left right : α → Nat) (as : List α) (hl : ∀ a ∈ as, left a ≤ right a) (placed : List (PlacedArrow α))
    (levels : Nat) (h : placeArrows left right as = some (placed, levels)) (m : Nat) (hm : ∀ x, as.countP (Touches left right x) ≤ m) :
    2 * levels ≤ m * (m + 1) := by
  obtain ⟨p, l, h1, h2⟩ := C55_place left right as hl
  rw [h1] at h
  cases h
  cases levels with
  | zero => omega
  | succ n =>
    obtain ⟨q, hq, rfl⟩ := h2.used n (by omega)
    have hmem : ∀ p ∈ placed, left p.arrow ≤ right p.arrow := fun p hp => hl _ (h2.each.mem_iff.1 (List.mem_map.2 ⟨p, hp, rfl⟩))
    refine levels_nested left (fun a => right a + 1) m (fun p hp => by have := hmem p hp; omega) (fun x => ?_) (fun q hq l hlq => ?_) m 0
      (Nat.zero_add _) q hq (fun _ _ _ => Nat.zero_le _)
    · refine Nat.le_trans (Nat.le_of_eq ?_) (hm x)
      rw [← h2.each.countP_eq, List.countP_map]
      refine List.countP_congr (fun p _ => ?_)
      simp [Touches, Nat.lt_succ_iff]
    · obtain ⟨p, hp, e1, e2, e3⟩ := h2.tight q hq l hlq
      refine ⟨p, hp, e1, ?_⟩
      have := hmem p hp
      simp only [Before, not_and_or] at e3
      by_cases hc : left p.arrow ≤ left q.arrow
      · left
        refine ⟨hc, ?_⟩
        rcases e3 with e3 | e3
        · omega
        · obtain ⟨e4, e5⟩ := _root_.not_imp.1 e3; omega
      · exact .inr ⟨by omega, by omega⟩

example : (placeArrows (α := Nat × Nat) (·.1) (·.2) [(0, 2), (1, 3), (3, 3), (2, 5)]).map (·.2) = some 3 ∧
    ∀ x < 6, [(0, 2), (1, 3), (3, 3), (2, 5)].countP (Touches (α := Nat × Nat) (·.1) (·.2) x) ≤ 3 := by decide +kernel

/-- **C107** Without loops it is enough that at most `m` arrows pass between a state and the next. -/
theorem C107_at_most_loopless {α : Type} (left right : α → Nat) (as : List α) (hl : ∀ a ∈ as, left a < right a)
    (placed : List (PlacedArrow α)) (levels : Nat) (h : placeArrows left right as = some (placed, levels)) (m : Nat)
    (hm : ∀ x, as.countP (Passes left right x) ≤ m) : 2 * levels ≤ m * (m + 1) := by
  obtain ⟨p, l, h1, h2⟩ := C55_place left right as (fun a ha => Nat.le_of_lt (hl a ha))
  rw [h1] at h
  cases h
  cases levels with
  | zero => omega
  | succ n =>
    obtain ⟨q, hq, rfl⟩ := h2.used n (by omega)
    have hmem : ∀ p ∈ placed, left p.arrow < right p.arrow := fun p hp => hl _ (h2.each.mem_iff.1 (List.mem_map.2 ⟨p, hp, rfl⟩))
    refine levels_nested left right m hmem (fun x => ?_) (fun q hq l hlq => ?_) m 0 (Nat.zero_add _) q hq (fun _ _ _ => Nat.zero_le _)
    · refine Nat.le_trans (Nat.le_of_eq ?_) (hm x)
      rw [← h2.each.countP_eq, List.countP_map]
      rfl
    · obtain ⟨p, hp, e1, e2, e3⟩ := h2.tight q hq l hlq
      refine ⟨p, hp, e1, ?_⟩
      have := hmem p hp
      simp only [Before, not_and_or] at e3
      by_cases hc : left p.arrow ≤ left q.arrow
      · left
        refine ⟨hc, ?_⟩
        rcases e3 with e3 | e3
        · omega
        · obtain ⟨e4, e5⟩ := _root_.not_imp.1 e3; omega
      · exact .inr ⟨by omega, e2⟩

example : (placeArrows (α := Nat × Nat) (·.1) (·.2) [(0, 2), (1, 3), (3, 4), (2, 5)]).map (·.2) = some 3 ∧
    ∀ x < 6, [(0, 2), (1, 3), (3, 4), (2, 5)].countP (Passes (α := Nat × Nat) (·.1) (·.2) x) ≤ 2 := by decide +kernel

/-- **C107** Each level takes as much as it can: from what is on this and the higher levels, one cannot choose more arrows, separate from
each other, than there are on this level. -/
theorem C107_full {α : Type} (left right : α → Nat) (as : List α) (hl : ∀ a ∈ as, left a ≤ right a) (placed : List (PlacedArrow α))
    (levels : Nat) (h : placeArrows left right as = some (placed, levels)) (l : Nat) (ss : List α)
    (hss : ∀ s ∈ ss, ∃ p ∈ placed, p.arrow = s ∧ l ≤ p.level) (hs : Separate left right ss) :
    ss.length ≤ placed.countP (fun p => p.level = l) := by
  obtain ⟨p, l', h1, h2⟩ := C55_place left right as hl
  rw [h1] at h
  cases h
  have hm : ∀ s ∈ ss, left s ≤ right s := fun s hs => by
    obtain ⟨p, hp, rfl, _⟩ := hss s hs
    exact hl _ (h2.each.mem_iff.1 (List.mem_map.2 ⟨p, hp, rfl⟩))
  refine placeArrows_most as hl h1 l ss hss (List.Pairwise.imp_of_mem ?_ hs)
  intro a b _ hb hab
  have := hm b hb
  refine ⟨by omega, fun g _ hg => ?_⟩
  split <;> omega

example : placeArrows (α := Nat × Nat) (·.1) (·.2) [(0, 5), (0, 0), (0, 1), (2, 3), (4, 6), (1, 1)] =
    some ([⟨(0, 0), 0⟩, ⟨(1, 1), 0⟩, ⟨(2, 3), 0⟩, ⟨(4, 6), 0⟩, ⟨(0, 1), 1⟩, ⟨(0, 5), 2⟩], 3) ∧
    Separate (α := Nat × Nat) (·.1) (·.2) [(0, 1), (2, 3), (4, 6)] := ⟨by decide +kernel, by simp [Separate]⟩

/-- **C107** Without loops this also holds for arrows that begin where the one before ends. -/
theorem C107_full_loopless {α : Type} (left right : α → Nat) (as : List α) (hl : ∀ a ∈ as, left a < right a) (placed : List (PlacedArrow α))
    (levels : Nat) (h : placeArrows left right as = some (placed, levels)) (l : Nat) (ss : List α)
    (hss : ∀ s ∈ ss, ∃ p ∈ placed, p.arrow = s ∧ l ≤ p.level) (hs : InRow left right ss) :
    ss.length ≤ placed.countP (fun p => p.level = l) := by
  obtain ⟨p, l', h1, h2⟩ := C55_place left right as (fun a ha => Nat.le_of_lt (hl a ha))
  rw [h1] at h
  cases h
  have hm : ∀ s ∈ ss, left s < right s := fun s hs => by
    obtain ⟨p, hp, rfl, _⟩ := hss s hs
    exact hl _ (h2.each.mem_iff.1 (List.mem_map.2 ⟨p, hp, rfl⟩))
  refine placeArrows_most as (fun a ha => Nat.le_of_lt (hl a ha)) h1 l ss hss (List.Pairwise.imp_of_mem ?_ hs)
  intro a b _ hb hab
  have := hm b hb
  refine ⟨by omega, fun g hg hga => ?_⟩
  have := hl g hg
  split <;> omega

example : placeArrows (α := Nat × Nat) (·.1) (·.2) [(0, 5), (0, 1), (1, 3), (3, 6), (0, 3)] =
    some ([⟨(0, 1), 0⟩, ⟨(1, 3), 0⟩, ⟨(3, 6), 0⟩, ⟨(0, 3), 1⟩, ⟨(0, 5), 2⟩], 3) ∧
    InRow (α := Nat × Nat) (·.1) (·.2) [(0, 3), (3, 6)] := ⟨by decide +kernel, by simp [InRow]⟩

/-- An arrow goes from the lower to the higher one of two states. -/
private theorem ends_of {g : GroupedArrow} (h : g.Oriented) : g.left = min g.source g.target ∧ g.right = max g.source g.target := by
  obtain ⟨l, r, d, ls⟩ := g
  cases d <;> simp only [GroupedArrow.Oriented, GroupedArrow.source, GroupedArrow.target, reduceCtorEq, ↓reduceIte] at h ⊢ <;> omega

private theorem groups_count {ls : Nat → Nat → List Str} {n : Nat} {gs : List GroupedArrow} (hg : Groups ls gs) (hi : Inside n ls)
    (P : Nat → Nat → Bool) :
    gs.countP (fun g => P g.left g.right) = (labelledPairs ls n).countP (fun x => P (min x.1 x.2) (max x.1 x.2)) := by
  rw [← (pairs_perm hg hi).countP_eq, List.countP_map]
  refine List.countP_congr (fun g h => ?_)
  obtain ⟨h1, h2⟩ := ends_of (hg.oriented g h)
  rw [h1, h2]
  rfl

private theorem layout_placement {ls : Nat → Nat → List Str} (ord : List GroupedArrow → List GroupedArrow) (as : List Arrow)
    (hg : Groups ls (groupArrows ord as)) : ∀ g ∈ groupArrows ord as, g.left ≤ g.right := by
  intro g h
  obtain ⟨h1, h2⟩ := ends_of (hg.oriented g h)
  omega

private theorem height_of {ls : Nat → Nat → List Str} {n : Nat} (ord : List GroupedArrow → List GroupedArrow) (as : List Arrow)
    (hg : Groups ls (groupArrows ord as)) (hi : Inside n ls) {placed : List (PlacedArrow GroupedArrow)} {levels : Nat}
    (h : layout ord as = some (placed, levels)) (m : Nat)
    (hm : ∀ x, (labelledPairs ls n).countP (fun p => decide (min p.1 p.2 ≤ x) && decide (x ≤ max p.1 p.2)) ≤ m) :
    2 * levels ≤ m * (m + 1) ∧
      ∀ x, (labelledPairs ls n).countP (fun p => decide (min p.1 p.2 ≤ x) && decide (x < max p.1 p.2)) ≤ levels := by
  have hl := layout_placement ord as hg
  refine ⟨C107_at_most _ _ _ hl placed levels h m (fun x => ?_), fun x => ?_⟩
  · rw [show Touches GroupedArrow.left GroupedArrow.right x = fun g => (fun a b => decide (a ≤ x) && decide (x ≤ b)) g.left g.right from rfl,
      groups_count hg hi (fun a b => decide (a ≤ x) && decide (x ≤ b))]
    exact hm x
  · rw [← groups_count hg hi (fun a b => decide (a ≤ x) && decide (x < b))]
    obtain ⟨p, l, h1, h2⟩ := C55_place GroupedArrow.left GroupedArrow.right _ hl
    rw [layout, h1] at h
    cases h
    exact C107_at_least _ _ _ placed levels (arranged_of h2) x

/-- **C107** The height of the drawing of a valid DFA: if, for each state, at most `m` pairs of states with transitions from one to the other
lie around it, there are at most `m (m + 1) / 2` levels; and at least as many as pairs lie around the way from a state to the next. -/
theorem C107_dfa (o : Options) (hs : o.Sensible) (ord : List GroupedArrow → List GroupedArrow) (ho : ∀ l, (ord l).Perm l) (d : Dfa) (h : d.WF)
    (m : Nat) (hm : ∀ x, (labelledPairs (dfaLabels d) d.states.length).countP
      (fun p => decide (min p.1 p.2 ≤ x) && decide (x ≤ max p.1 p.2)) ≤ m) :
    ∃ ops gs placed levels, drawDfa o ord d = some ops ∧ Groups (dfaLabels d) gs ∧
      Placement GroupedArrow.left GroupedArrow.right gs placed levels ∧ DrawnOn o (d.states.map dfaState) placed levels ops ∧
      2 * levels ≤ m * (m + 1) ∧ ∀ x, (labelledPairs (dfaLabels d) d.states.length).countP
        (fun p => decide (min p.1 p.2 ≤ x) && decide (x < max p.1 p.2)) ≤ levels := by
  obtain ⟨as, h1, h2⟩ := dfa_groups ord ho h
  obtain ⟨placed, levels, h3, h4⟩ := layout_ok ord as h2
  refine ⟨_, _, placed, levels, ?_, h2, h4, drawnOn hs (d.states.map dfaState) h2.oriented h4, height_of ord as h2 (dfa_inside h) h3 m hm⟩
  unfold drawDfa draw
  simp only [h1, h3, Option.bind_eq_bind, Option.bind_some]
  rfl

/-- In `redundant` at most eight pairs lie around a state, and five around the way from one to the next. -/
example : redundant.WF ∧
    (∀ x < 7, (labelledPairs (dfaLabels redundant) 6).countP (fun p => decide (min p.1 p.2 ≤ x) && decide (x ≤ max p.1 p.2)) ≤ 8) ∧
    (labelledPairs (dfaLabels redundant) 6).countP (fun p => decide (min p.1 p.2 ≤ 2) && decide (2 < max p.1 p.2)) = 5 :=
  ⟨redundant_wf, by decide +kernel, by decide +kernel⟩

/-- **C107** The same for NFAs. -/
theorem C107_nfa (o : Options) (hs : o.Sensible) (ord : List GroupedArrow → List GroupedArrow) (ho : ∀ l, (ord l).Perm l) (n : Nfa) (h : n.WF)
    (m : Nat) (hm : ∀ x, (labelledPairs (nfaLabels n) n.states.length).countP
      (fun p => decide (min p.1 p.2 ≤ x) && decide (x ≤ max p.1 p.2)) ≤ m) :
    ∃ ops gs placed levels, drawNfa o ord n = some ops ∧ Groups (nfaLabels n) gs ∧
      Placement GroupedArrow.left GroupedArrow.right gs placed levels ∧ DrawnOn o (n.states.map nfaState) placed levels ops ∧
      2 * levels ≤ m * (m + 1) ∧ ∀ x, (labelledPairs (nfaLabels n) n.states.length).countP
        (fun p => decide (min p.1 p.2 ≤ x) && decide (x < max p.1 p.2)) ≤ levels := by
  obtain ⟨as, h1, h2⟩ := nfa_groups ord ho h
  obtain ⟨placed, levels, h3, h4⟩ := layout_ok ord as h2
  refine ⟨_, _, placed, levels, ?_, h2, h4, drawnOn hs (n.states.map nfaState) h2.oriented h4, height_of ord as h2 (nfa_inside h) h3 m hm⟩
  unfold drawNfa draw
  simp only [h1, h3, Option.bind_eq_bind, Option.bind_some]
  rfl

/-- Six states with the transitions `0 → 2`, `1 → 3`, `2 → 5` and `3 → 4`. -/
def crossing : Nfa :=
  { alphabet := [s 'a'],
    states := [⟨s '0', true, false, [], [[2]]⟩, ⟨s '1', false, false, [], [[3]]⟩, ⟨s '2', false, false, [], [[5]]⟩,
      ⟨s '3', false, false, [], [[4]]⟩, ⟨s '4', false, true, [], [[]]⟩, ⟨s '5', false, true, [], [[]]⟩],
    initialState := 0 }

/-- At most three of its arrows touch a state, two pass between a state and the next. -/
example : crossing.WF ∧
    (∀ x < 7, (labelledPairs (nfaLabels crossing) 6).countP (fun p => decide (min p.1 p.2 ≤ x) && decide (x ≤ max p.1 p.2)) ≤ 3) ∧
    (labelledPairs (nfaLabels crossing) 6).countP (fun p => decide (min p.1 p.2 ≤ 2) && decide (2 < max p.1 p.2)) = 2 :=
  ⟨Nfa.wf_of_wfB (by decide), by decide +kernel, by decide +kernel⟩

/-- The groups of `crossing`. -/
private def crossingGroups : List GroupedArrow :=
  [⟨0, 2, .right, [s 'a']⟩, ⟨1, 3, .right, [s 'a']⟩, ⟨2, 5, .right, [s 'a']⟩, ⟨3, 4, .right, [s 'a']⟩]

/-- **C107 is not all one wants** The height is not always the least possible: the four arrows of this automaton fit on two levels, but
three are drawn (six lines above the one with the states), whatever the order of the hash map. -/
theorem C107_least_false : crossing.WF ∧
    (∀ ord : List GroupedArrow → List GroupedArrow, (∀ l, (ord l).Perm l) →
      (nfaAsciiArt ord crossing).map (fun art => art.count '\n') = some 6) ∧
    ∃ gs placed, Groups (nfaLabels crossing) gs ∧ Arranged GroupedArrow.left GroupedArrow.right gs placed 2 := by
  refine ⟨Nfa.wf_of_wfB (by decide), fun ord ho => ?_, ?_⟩
  · have h1 : nfaAsciiArt ord crossing = nfaAsciiArt (fun _ => ord crossingGroups) crossing := rfl
    rw [h1]
    have h2 : ∀ l ∈ crossingGroups.permutations', (nfaAsciiArt (fun _ => l) crossing).map (fun art => art.count '\n') = some 6 := by
      decide +kernel
    exact h2 _ (List.mem_permutations'.2 (ho _))
  · obtain ⟨as, h1, h2⟩ := nfa_groups id (fun _ => .refl _) (n := crossing) (Nfa.wf_of_wfB (by decide))
    have h3 : nfaToArrows crossing = some as → groupArrows id as = crossingGroups := by
      intro h
      have : nfaToArrows crossing = some [⟨0, 2, .right, s 'a'⟩, ⟨1, 3, .right, s 'a'⟩, ⟨2, 5, .right, s 'a'⟩, ⟨3, 4, .right, s 'a'⟩] := by rfl
      rw [this] at h
      cases h
      rfl
    rw [h3 h1] at h2
    refine ⟨_, [⟨⟨0, 2, .right, [s 'a']⟩, 0⟩, ⟨⟨1, 3, .right, [s 'a']⟩, 1⟩, ⟨⟨2, 5, .right, [s 'a']⟩, 0⟩, ⟨⟨3, 4, .right, [s 'a']⟩, 1⟩], h2,
      .of_eq rfl, by simp, by simp [Before]⟩

end Dandy
