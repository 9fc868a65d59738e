import Verif.Spec.DrawBox
import Verif.Proofs.DrawCanvas
/-! # How large drawings are -/

namespace Dandy
namespace Draw

section levels
variable {α : Type} {left right : α → Nat} {gs : List α} {placed : List (PlacedArrow α)} {levels : Nat}

theorem levels_ge (hp : Placement left right gs placed levels) (k : Nat) : gs.countP (fun g => left g ≤ k ∧ k < right g) ≤ levels := by
  rw [← hp.each.countP_eq, List.countP_map, List.countP_eq_length_filter]
  have hn : ((placed.filter ((fun g => decide (left g ≤ k ∧ k < right g)) ∘ (·.arrow))).map (·.level)).Nodup := by
    rw [List.nodup_iff_pairwise_ne, List.pairwise_map]
    refine List.Pairwise.imp_of_mem ?_ (hp.apart.filter _)
    intro p q hpm hqm h e
    have h1 := h e
    have hp' := (List.mem_filter.1 hpm).2
    have hq' := (List.mem_filter.1 hqm).2
    simp only [Function.comp_apply, decide_eq_true_eq] at hp' hq'
    have := h1.1
    omega
  have hs : ((placed.filter ((fun g => decide (left g ≤ k ∧ k < right g)) ∘ (·.arrow))).map (·.level)) ⊆ List.range levels := by
    intro l hl
    obtain ⟨p, hpm, rfl⟩ := List.mem_map.1 hl
    exact List.mem_range.2 (hp.below p (List.mem_filter.1 hpm).1)
  have := (List.subperm_of_subset hn hs).length_le
  rw [List.length_map, List.length_range] at this
  exact this

theorem levels_le (hp : Placement left right gs placed levels) (hle : ∀ g ∈ gs, left g ≤ right g) {k : Nat}
    (h : ∀ q ∈ gs, gs.countP (fun p => right p ≤ right q ∧ (left q < right p ∨ left p = right p ∧ left p = left q)) ≤ k) : levels ≤ k := by
  cases levels with
  | zero => exact Nat.zero_le _
  | succ m =>
    obtain ⟨q, hq, hl⟩ := hp.used m (Nat.lt_succ_self m)
    have hqm := hp.each.mem_iff.1 (List.mem_map.2 ⟨q, hq, rfl⟩)
    refine le_trans ?_ (h q.arrow hqm)
    rw [← hp.each.countP_eq, List.countP_map, List.countP_eq_length_filter]
    have hs : List.range (m + 1) ⊆ ((placed.filter ((fun p => decide (right p ≤ right q.arrow ∧
        (left q.arrow < right p ∨ left p = right p ∧ left p = left q.arrow))) ∘ (·.arrow))).map (·.level)) := by
      intro l hlm
      rw [List.mem_range] at hlm
      by_cases e : l = m
      · refine List.mem_map.2 ⟨q, List.mem_filter.2 ⟨hq, ?_⟩, by rw [hl, e]⟩
        simp only [Function.comp_apply, decide_eq_true_eq]
        have h' : left q.arrow ≤ right q.arrow := hle _ hqm
        exact ⟨le_refl _, h'.lt_or_eq.imp_right (fun e' => ⟨e', trivial⟩)⟩
      · obtain ⟨p, hpm, h1, h2, h3⟩ := hp.tight q hq l (by omega)
        refine List.mem_map.2 ⟨p, List.mem_filter.2 ⟨hpm, ?_⟩, h1⟩
        simp only [Function.comp_apply, decide_eq_true_eq]
        have : left p.arrow ≤ right p.arrow := hle _ (hp.each.mem_iff.1 (List.mem_map.2 ⟨p, hpm, rfl⟩))
        unfold Before at h3
        omega
    have := (List.subperm_of_subset List.nodup_range hs).length_le
    rw [List.length_map, List.length_range] at this
    exact this

end levels

section pairs
variable {ls : Nat → Nat → List Str} {gs : List GroupedArrow} {placed : List (PlacedArrow GroupedArrow)} {levels : Nat} {ps : List (Nat × Nat)}

theorem over_le (hg : Groups ls gs) (hp : Placement GroupedArrow.left GroupedArrow.right gs placed levels)
    (hps : (gs.map (fun g => (g.source, g.target))).Perm ps) (k : Nat) : over ps k ≤ levels := by
  refine le_trans (le_of_eq ?_) (levels_ge hp k)
  unfold over
  rw [← hps.countP_eq, List.countP_map]
  refine List.countP_congr ?_
  intro g hgm
  obtain ⟨h1, h2, _⟩ := ends_eq (hg.oriented g hgm)
  simp only [Function.comp_apply, decide_eq_true_eq, h1, h2]

theorem le_under (hg : Groups ls gs) (hp : Placement GroupedArrow.left GroupedArrow.right gs placed levels)
    (hps : (gs.map (fun g => (g.source, g.target))).Perm ps) {k : Nat} (h : ∀ q ∈ ps, under ps q ≤ k) : levels ≤ k := by
  refine levels_le hp (fun g hgm => Oriented.le (hg.oriented g hgm)) ?_
  intro q hq
  refine le_trans (le_of_eq ?_) (h (q.source, q.target) (hps.mem_iff.1 (List.mem_map.2 ⟨q, hq, rfl⟩)))
  unfold under
  rw [← hps.countP_eq, List.countP_map]
  refine List.countP_congr ?_
  intro g hgm
  obtain ⟨h1, h2, h3⟩ := ends_eq (hg.oriented g hgm)
  obtain ⟨h4, h5, h6⟩ := ends_eq (hg.oriented q hq)
  simp only [Function.comp_apply, decide_eq_true_eq, ← h2, ← h4, ← h5]
  omega

end pairs

/-! ## The rectangle -/

private theorem add_x (a b : Pos2) : (a + b).x = a.x + b.x := rfl
private theorem add_y (a b : Pos2) : (a + b).y = a.y + b.y := rfl
private theorem sub_x (a b : Pos2) : (a - b).x = a.x - b.x := rfl
private theorem sub_y (a b : Pos2) : (a - b).y = a.y - b.y := rfl
private theorem mul_x (a b : Pos2) : (a * b).x = a.x * b.x := rfl
private theorem mul_y (a b : Pos2) : (a * b).y = a.y * b.y := rfl

/-- The call draws in the rectangle from the origin to `(w, h)`. -/
def Op.Within (w h : Rat) : Op → Prop
  | .circle p r _ => 0 ≤ r ∧ r ≤ p.x ∧ p.x + r ≤ w ∧ r ≤ p.y ∧ p.y + r ≤ h
  | .line a b _ => Pos2.In ⟨0, 0⟩ ⟨w, h⟩ a ∧ Pos2.In ⟨0, 0⟩ ⟨w, h⟩ b
  | .text p _ => Pos2.In ⟨0, 0⟩ ⟨w, h⟩ p
  | _ => True

theorem onCanvas_in {o : Options} (hr : o.Roomy) {w h : Rat} {p : Pos2} (hp : Pos2.In ⟨0, 0⟩ ⟨w, h⟩ p) :
    Pos2.In (o.onCanvas 0 0) (o.onCanvas w h) (o.onCanvas p.x p.y) := by
  obtain ⟨h1, h2, h3, h4⟩ := hp
  have hx := hr.scaleX
  have hy : 0 < o.yScale := lt_of_lt_of_le hx hr.scaleY
  dsimp only at h1 h2 h3 h4
  refine ⟨?_, ?_, ?_, ?_⟩
  · exact mul_le_mul_of_nonneg_right (by linarith) hx.le
  · exact mul_le_mul_of_nonneg_right (by linarith) hx.le
  · exact mul_le_mul_of_nonneg_right (by linarith) hy.le
  · exact mul_le_mul_of_nonneg_right (by linarith) hy.le

theorem items_in {o : Options} (hr : o.Roomy) {w h : Rat} : ∀ (ops : List Op) (c : Color), (∀ op ∈ ops, op.Within w h) →
    ∀ it ∈ items c (ops.map (Op.place ⟨o.xOffset, o.yOffset⟩ ⟨o.xScale, o.yScale⟩)), it.In (o.onCanvas 0 0) (o.onCanvas w h) := by
  intro ops
  induction ops with
  | nil => intro c _ it hit; cases hit
  | cons op ops ih =>
    intro c hop it hit
    have hrest := fun op' (h' : op' ∈ ops) => hop op' (List.mem_cons_of_mem _ h')
    have h0 := hop op List.mem_cons_self
    have hx := hr.scaleX
    have hy : 0 < o.yScale := lt_of_lt_of_le hx hr.scaleY
    cases op with
    | start => exact ih _ hrest it hit
    | finish => exact ih _ hrest it hit
    | color c' => exact ih _ hrest it hit
    | text p s =>
      rcases List.mem_cons.1 hit with rfl | hit
      · exact onCanvas_in hr h0
      · exact ih _ hrest it hit
    | line a b t =>
      rcases List.mem_cons.1 hit with rfl | hit
      · exact ⟨onCanvas_in hr h0.1, onCanvas_in hr h0.2⟩
      · exact ih _ hrest it hit
    | circle p r t =>
      rcases List.mem_cons.1 hit with rfl | hit
      · obtain ⟨g0, g1, g2, g3, g4⟩ := h0
        have e : r * o.xScale ≤ r * o.yScale := mul_le_mul_of_nonneg_left hr.scaleY g0
        have a1 := mul_le_mul_of_nonneg_right g1 hx.le
        have a2 := mul_le_mul_of_nonneg_right g2 hx.le
        have a3 := mul_le_mul_of_nonneg_right g3 hy.le
        have a4 := mul_le_mul_of_nonneg_right g4 hy.le
        have a5 := mul_nonneg g0 hx.le
        refine ⟨⟨?_, ?_, ?_, ?_⟩, ?_, ?_, ?_, ?_⟩
        all_goals
          simp only [Options.onCanvas, add_x, add_y, mul_x, mul_y]
          linarith
      · exact ih _ hrest it hit

section ops
variable {o : Options} (hr : o.Roomy)
include hr

theorem Options.Roomy.sensible : o.Sensible := by
  have h1 := hr.scaleX
  have h2 := lt_of_lt_of_le h1 hr.scaleY
  have h3 := hr.leaving
  have h4 := hr.entering
  have h5 := hr.arms
  have h6 := hr.padding
  exact ⟨h1.ne', h2.ne', hr.radius, h6, hr.margin, hr.floor, h3.1, h4.1, by unfold Options.step; linarith⟩

theorem xPos_bounds {n idx : Nat} (h : idx < n) : o.initArrowLength + o.centerLinePadding + o.circleRadius ≤ xPos o idx ∧
    xPos o idx + o.circleRadius ≤ o.width n := by
  have h1 : ((idx : Rat) + 1) ≤ (n : Rat) := by exact_mod_cast h
  have h0 : (0 : Rat) ≤ (idx : Rat) := Nat.cast_nonneg _
  have hs : 0 ≤ o.circleRadius * 2 + o.centerLinePadding := by have := hr.radius; have := hr.padding; linarith
  have h2 := mul_le_mul_of_nonneg_left h1 hs
  have h3 := mul_nonneg hs h0
  unfold xPos Options.width Options.step
  constructor
  · linarith
  · linarith

theorem init_within {n levels : Nat} (hn : 0 < n) : ∀ op ∈ initOps o levels, op.Within (o.width n) (o.height levels) := by
  obtain ⟨x1, x2⟩ := xPos_bounds hr hn
  have hB : 0 ≤ o.baseY levels := by
    unfold Options.baseY
    have := hr.floor
    positivity
  obtain ⟨i1, i2, i3⟩ := hr.init
  have := hr.radius; have := hr.padding; have := hr.margin
  intro op hop
  simp only [initOps, List.mem_cons, List.not_mem_nil, or_false, circleCenter_eq] at hop
  rcases hop with rfl | rfl | rfl | rfl
  · trivial
  all_goals
    refine ⟨⟨?_, ?_, ?_, ?_⟩, ?_, ?_, ?_, ?_⟩
    all_goals
      simp only [Options.height, Options.stateY, sub_x, sub_y]
      linarith

theorem state_within {n levels idx : Nat} (hn : idx < n) (s : State) : ∀ op ∈ stateOps o levels idx s, op.Within (o.width n) (o.height levels) := by
  obtain ⟨x1, x2⟩ := xPos_bounds hr hn
  have hB : 0 ≤ o.baseY levels := by
    unfold Options.baseY
    have := hr.floor
    positivity
  obtain ⟨i1, i2, i3⟩ := hr.init
  obtain ⟨j1, j2⟩ := hr.inner
  have := hr.radius; have := hr.padding; have := hr.margin
  intro op hop
  simp only [stateOps, circleCenter_eq, List.mem_append, List.mem_cons, List.not_mem_nil, or_false] at hop
  rcases hop with (((rfl | rfl) | hop) | hop) | rfl | rfl
  · trivial
  · refine ⟨?_, ?_, ?_, ?_, ?_⟩
    all_goals
      try simp only [Options.height, Options.stateY]
      linarith
  · split at hop
    · rw [List.mem_singleton] at hop
      subst hop
      refine ⟨?_, ?_, ?_, ?_, ?_⟩
      all_goals
        try simp only [Options.height, Options.stateY]
        linarith
    · cases hop
  · split at hop
    · simp only [List.mem_cons, List.not_mem_nil, or_false] at hop
      rcases hop with rfl | rfl | rfl | rfl
      · trivial
      all_goals
        refine ⟨⟨?_, ?_, ?_, ?_⟩, ?_, ?_, ?_, ?_⟩
        all_goals
          simp only [Options.height, Options.stateY, add_x, add_y, Pos2.ofY]
          linarith
    · cases hop
  · trivial
  · refine ⟨?_, ?_, ?_, ?_⟩
    all_goals
      simp only [Options.height, Options.stateY]
      linarith

theorem arrow_within {n levels : Nat} (a : PlacedArrow GroupedArrow) (h1 : a.arrow.left < n) (h2 : a.arrow.right < n) (hl : a.level < levels) :
    ∀ op ∈ arrowOps o levels a, op.Within (o.width n) (o.height levels) := by
  obtain ⟨x1, x2⟩ := xPos_bounds hr h1
  obtain ⟨x3, x4⟩ := xPos_bounds hr h2
  obtain ⟨i1, i2, i3⟩ := hr.init
  obtain ⟨f1, f2⟩ := hr.leaving
  obtain ⟨t1, t2⟩ := hr.entering
  obtain ⟨a1, a2⟩ := hr.arms
  obtain ⟨m1, m2⟩ := hr.text
  have := hr.radius; have := hr.padding; have := hr.margin
  have hf := hr.floor
  have y1 : o.floorHeight ≤ o.levelY levels a.level := by
    have : (1 : Rat) ≤ (levels : Rat) - (a.level : Rat) := by
      have : ((a.level + 1 : Nat) : Rat) ≤ (levels : Rat) := by exact_mod_cast hl
      push_cast at this
      linarith
    have := mul_le_mul_of_nonneg_left this hf.le
    unfold Options.levelY
    linarith
  have y2 : o.levelY levels a.level + o.floorHeight ≤ o.baseY levels := by
    have : (0 : Rat) ≤ (a.level : Rat) := Nat.cast_nonneg _
    have := mul_nonneg hf.le this
    unfold Options.levelY Options.baseY
    linarith
  have fin : o.height levels = o.baseY levels + o.lineCircleMargin + o.circleRadius + o.circleRadius + o.centerLinePadding + o.initArrowLength := rfl
  have line : ∀ {x y x' y' t : Rat}, 0 ≤ x → x ≤ o.width n → 0 ≤ y → y ≤ o.baseY levels → 0 ≤ x' → x' ≤ o.width n → 0 ≤ y' → y' ≤ o.baseY levels →
      (Op.line ⟨x, y⟩ ⟨x', y'⟩ t).Within (o.width n) (o.height levels) := by
    intro x y x' y' t p1 p2 p3 p4 p5 p6 p7 p8
    exact ⟨⟨p1, p2, p3, by show y ≤ o.height levels; linarith⟩, p5, p6, p7, by show y' ≤ o.height levels; linarith⟩
  intro op hop
  simp only [arrowOps, lineBaseline_eq, levelY_eq hl, List.mem_append, List.mem_cons, List.not_mem_nil, or_false, xFromPos, xToPos] at hop
  rcases hop with (((rfl | rfl | rfl | rfl) | hop) | hop) | rfl | rfl
  · trivial
  · apply line <;> linarith
  · apply line <;> linarith
  · apply line <;> linarith
  · split at hop
    · simp only [List.mem_cons, List.not_mem_nil, or_false] at hop
      rcases hop with rfl | rfl
      all_goals
        split
        all_goals apply line <;> linarith
    · cases hop
  · split at hop
    · simp only [List.mem_cons, List.not_mem_nil, or_false] at hop
      rcases hop with rfl | rfl
      all_goals
        split
        all_goals
          refine line ?_ ?_ ?_ ?_ ?_ ?_ ?_ ?_
          all_goals linarith
    · cases hop
  · trivial
  · refine ⟨?_, ?_, ?_, ?_⟩
    · dsimp only; linarith
    · dsimp only; linarith
    · dsimp only; linarith
    · dsimp only; linarith

theorem raw_within {states : List State} {placed : List (PlacedArrow GroupedArrow)} {levels : Nat} (hne : states ≠ [])
    (hp : ∀ p ∈ placed, p.arrow.left < states.length ∧ p.arrow.right < states.length ∧ p.level < levels) :
    ∀ op ∈ rawOps o states placed levels, op.Within (o.width states.length) (o.height levels) := by
  intro op hop
  simp only [rawOps, List.mem_append, List.mem_flatMap, List.mem_singleton] at hop
  rcases hop with (((rfl | hop) | ⟨x, hx, hop⟩) | ⟨p, hpm, hop⟩) | rfl
  · trivial
  · exact init_within hr (List.length_pos_of_ne_nil hne) op hop
  · have := List.snd_lt_of_mem_zipIdx hx
    exact state_within hr (by omega) x.1 op hop
  · obtain ⟨e1, e2, e3⟩ := hp p hpm
    exact arrow_within hr p e1 e2 e3 op hop
  · trivial

end ops

end Draw
end Dandy
