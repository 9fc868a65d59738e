import Verif.Proofs.DrawSize
/-! # The distance of texts and lines -/

namespace Dandy
namespace Draw

private theorem sub_mk (a b : Pos2) : a - b = ⟨a.x - b.x, a.y - b.y⟩ := rfl
private theorem add_mk (a b : Pos2) : a + b = ⟨a.x + b.x, a.y + b.y⟩ := rfl

/-- A line on one side of the square around `p`. -/
def Op.Off (d : Rat) (p : Pos2) : Op → Prop
  | .line a b _ => (a.x ≤ p.x - d ∧ b.x ≤ p.x - d) ∨ (p.x + d ≤ a.x ∧ p.x + d ≤ b.x) ∨
      (a.y ≤ p.y - d ∧ b.y ≤ p.y - d) ∨ (p.y + d ≤ a.y ∧ p.y + d ≤ b.y)
  | _ => True

private theorem multiples {s h d : Rat} (hd : d ≤ h) (hs : h + d ≤ s) (h0 : 0 ≤ s) (n : Int) : s * n + h ≤ -d ∨ d ≤ s * n + h := by
  rcases lt_or_ge n 0 with hn | hn
  · left
    have : (n : Rat) ≤ -1 := by exact_mod_cast Int.le_sub_one_of_lt hn
    nlinarith
  · right
    have : (0 : Rat) ≤ n := by exact_mod_cast hn
    nlinarith

section
variable {o : Options} {d : Rat} (hL : o.Legible d)
include hL

private theorem step_nonneg : 0 ≤ o.step := by
  have := hL.roomy.radius; have := hL.roomy.padding
  unfold Options.step
  linarith

private theorem line_off (p : PlacedArrow GroupedArrow) {x y y' w v : Rat} (k : Nat)
    (hx : x = o.stateX k + o.fromLineOffset ∨ x = o.stateX k - o.toLineOffset) :
    (Op.line ⟨x, y⟩ ⟨x, y'⟩ w).Off d ⟨(o.leftEnd p.arrow + o.rightEnd p.arrow) / 2, v⟩ := by
  obtain ⟨a1, a2⟩ := hL.off
  have hs := step_nonneg hL
  rcases hx with rfl | rfl
  · have := multiples a1 a2 (by linarith) (2 * (k : Int) - p.arrow.left - p.arrow.right)
    push_cast at this
    rcases this with h | h
    · left
      simp only [Options.leftEnd, Options.rightEnd, Options.stateX]
      constructor <;> linarith
    · right; left
      simp only [Options.leftEnd, Options.rightEnd, Options.stateX]
      constructor <;> linarith
  · have := multiples a1 a2 (by linarith) (-(2 * (k : Int) - p.arrow.left - p.arrow.right))
    push_cast at this
    rcases this with h | h
    · right; left
      simp only [Options.leftEnd, Options.rightEnd, Options.stateX]
      constructor <;> linarith
    · left
      simp only [Options.leftEnd, Options.rightEnd, Options.stateX]
      constructor <;> linarith

private theorem level_off {levels l l' : Nat} {x x' y y' w u : Rat}
    (hy : o.levelY levels l' - o.transArrowArmsLength ≤ y ∧ y ≤ o.levelY levels l' + o.transArrowArmsLength)
    (hy' : o.levelY levels l' - o.transArrowArmsLength ≤ y' ∧ y' ≤ o.levelY levels l' + o.transArrowArmsLength) :
    (Op.line ⟨x, y⟩ ⟨x', y'⟩ w).Off d ⟨u, o.levelY levels l - o.textMargin⟩ := by
  obtain ⟨t1, t2⟩ := hL.text
  have ha := hL.roomy.arms.1
  have hf := hL.roomy.floor
  have := multiples (d := o.transArrowArmsLength + d) (h := o.textMargin) (s := o.floorHeight) (by linarith) (by linarith) hf.le ((l : Int) - l')
  push_cast at this
  unfold Options.levelY at hy hy'
  rcases this with h | h
  · right; right; left
    unfold Options.levelY
    dsimp only
    constructor <;> linarith
  · right; right; right
    unfold Options.levelY
    dsimp only
    constructor <;> linarith

/-- Lines above the base line, and texts at states. -/
theorem name_off {states : List State} {placed : List (PlacedArrow GroupedArrow)} {levels : Nat} (hl : ∀ p ∈ placed, p.level < levels) (k : Nat) :
    ∀ op ∈ rawOps o states placed levels, op.Off d ⟨o.stateX k, o.stateY levels⟩ := by
  intro op hop
  have hb := raw_beside hL.roomy hl op hop
  have hr := hL.radius
  have hp := hL.roomy.padding; have hm := hL.roomy.margin
  have hs := mul_nonneg (step_nonneg hL) (Nat.cast_nonneg k : (0 : Rat) ≤ k)
  cases op with
  | line a b w =>
    rcases hb with ⟨g1, g2⟩ | ⟨g1, g2⟩ | ⟨g1, g2⟩
    · left
      simp only [Options.stateX]
      constructor <;> linarith
    · right; right; left
      simp only [Options.stateY]
      constructor <;> linarith
    · right; right; right
      dsimp only
      constructor <;> linarith
  | _ => trivial

theorem label_off {states : List State} {placed : List (PlacedArrow GroupedArrow)} {levels : Nat} (hl : ∀ p ∈ placed, p.level < levels)
    (q : PlacedArrow GroupedArrow) (hq : q.level < levels) :
    ∀ op ∈ rawOps o states placed levels, op.Off d ⟨(o.leftEnd q.arrow + o.rightEnd q.arrow) / 2, o.levelY levels q.level - o.textMargin⟩ := by
  obtain ⟨i1, i2, i3⟩ := hL.roomy.init
  obtain ⟨a1, a2⟩ := hL.roomy.arms
  obtain ⟨t1, t2⟩ := hL.text
  have hm := hL.roomy.margin; have hp := hL.roomy.padding; have hR := hL.roomy.radius
  have hf := hL.roomy.floor
  have base : o.levelY levels q.level + o.floorHeight ≤ o.baseY levels := by
    have : (0 : Rat) ≤ (q.level : Rat) := Nat.cast_nonneg _
    have := mul_nonneg hf.le this
    unfold Options.levelY Options.baseY
    linarith
  have low : ∀ {x y x' y' w u : Rat}, o.baseY levels - o.transArrowArmsLength ≤ y → o.baseY levels - o.transArrowArmsLength ≤ y' →
      (Op.line ⟨x, y⟩ ⟨x', y'⟩ w).Off d ⟨u, o.levelY levels q.level - o.textMargin⟩ := by
    intro x y x' y' w u h h'
    right; right; right
    dsimp only
    constructor <;> linarith
  intro op hop
  simp only [rawOps, List.mem_append, List.mem_flatMap, List.mem_singleton] at hop
  rcases hop with (((rfl | hop) | ⟨x, hx, hop⟩) | ⟨p, hpm, hop⟩) | rfl
  · trivial
  · simp only [initOps, circleCenter_eq, Options.stateY, List.mem_cons, List.not_mem_nil, or_false, sub_mk] at hop
    rcases hop with rfl | rfl | rfl | rfl
    · trivial
    all_goals apply low <;> linarith
  · simp only [stateOps, circleCenter_eq, Options.stateY, List.mem_append, List.mem_cons, List.not_mem_nil, or_false, add_mk, Pos2.ofY] at hop
    rcases hop with (((rfl | rfl) | hop) | hop) | rfl | rfl
    · trivial
    · trivial
    · split at hop
      · rw [List.mem_singleton] at hop
        subst hop
        trivial
      · cases hop
    · split at hop
      · simp only [List.mem_cons, List.not_mem_nil, or_false] at hop
        rcases hop with rfl | rfl | rfl | rfl
        · trivial
        all_goals apply low <;> linarith
      · cases hop
    · trivial
    · trivial
  · have hl' := hl p hpm
    simp only [arrowOps, xFromPos, xToPos, xPos_eq, lineBaseline_eq, levelY_eq hl', List.mem_append, List.mem_cons, List.not_mem_nil, or_false,
      sub_mk] at hop
    rcases hop with (((rfl | rfl | rfl | rfl) | hop) | hop) | rfl | rfl
    · trivial
    · exact line_off hL q p.arrow.left (Or.inl rfl)
    · exact line_off hL q p.arrow.right (Or.inr rfl)
    · apply level_off hL (l' := p.level) <;> constructor <;> linarith
    · split at hop
      · simp only [List.mem_cons, List.not_mem_nil, or_false] at hop
        rcases hop with rfl | rfl
        all_goals
          apply level_off hL (l' := p.level) <;> constructor <;> linarith
      · cases hop
    · split at hop
      · simp only [List.mem_cons, List.not_mem_nil, or_false] at hop
        rcases hop with rfl | rfl
        all_goals
          split
          all_goals
            apply low
            all_goals linarith
      · cases hop
    · trivial
    · trivial
  · trivial

omit hL in
private theorem along_le {a b c t : Rat} (h0 : 0 ≤ t) (h1 : t ≤ 1) (ha : a ≤ c) (hb : b ≤ c) : a + t * (b - a) ≤ c := by nlinarith

omit hL in
private theorem le_along {a b c t : Rat} (h0 : 0 ≤ t) (h1 : t ≤ 1) (ha : c ≤ a) (hb : c ≤ b) : c ≤ a + t * (b - a) := by nlinarith

private theorem place_off {a b p : Pos2} {w : Rat} (hd : 0 ≤ d) (h : (Op.line a b w).Off d p) {t : Rat} (h0 : 0 ≤ t) (h1 : t ≤ 1) :
    Pos2.Apart (d * o.xScale) (Pos2.along (o.onCanvas a.x a.y) (o.onCanvas b.x b.y) t) (o.onCanvas p.x p.y) := by
  have hx := hL.roomy.scaleX
  have hy : 0 < o.yScale := lt_of_lt_of_le hx hL.roomy.scaleY
  have hxy : d * o.xScale ≤ d * o.yScale := mul_le_mul_of_nonneg_left hL.roomy.scaleY hd
  have key : ∀ {u v s f : Rat}, 0 < s → u ≤ v - d → (u + f) * s ≤ (v + f) * s - d * s := by
    intro u v s f hs huv
    have := mul_le_mul_of_nonneg_right (show u + f ≤ v + f - d by linarith) hs.le
    linarith
  have key' : ∀ {u v s f : Rat}, 0 < s → v + d ≤ u → (v + f) * s + d * s ≤ (u + f) * s := by
    intro u v s f hs huv
    have := mul_le_mul_of_nonneg_right (show v + f + d ≤ u + f by linarith) hs.le
    linarith
  simp only [Pos2.Apart, Pos2.along, Options.onCanvas]
  rcases h with ⟨g1, g2⟩ | ⟨g1, g2⟩ | ⟨g1, g2⟩ | ⟨g1, g2⟩
  · right; left
    have := along_le h0 h1 (key (f := o.xOffset) hx g1) (key (f := o.xOffset) hx g2)
    linarith
  · left
    have := le_along h0 h1 (key' (f := o.xOffset) hx g1) (key' (f := o.xOffset) hx g2)
    linarith
  · right; right; right
    have := along_le h0 h1 (key (f := o.yOffset) hy g1) (key (f := o.yOffset) hy g2)
    linarith
  · right; right; left
    have := le_along h0 h1 (key' (f := o.yOffset) hy g1) (key' (f := o.yOffset) hy g2)
    linarith

theorem raw_unstruck (hd : 0 ≤ d) {states : List State} {placed : List (PlacedArrow GroupedArrow)} {levels : Nat} (hl : ∀ p ∈ placed, p.level < levels) :
    Unstruck (d * o.xScale) ((rawOps o states placed levels).map (Op.place ⟨o.xOffset, o.yOffset⟩ ⟨o.xScale, o.yScale⟩)) := by
  rintro a b ⟨w, hab⟩ p s hp t h0 h1
  obtain ⟨op, hop, e⟩ := List.mem_map.1 hab
  rw [texts_place, raw_texts hl, List.map_append, List.map_map, List.map_map] at hp
  cases op with
  | line a' b' w' =>
    cases e
    rcases List.mem_append.1 hp with hp | hp
    · obtain ⟨x, _, e⟩ := List.mem_map.1 hp
      cases e
      exact place_off hL hd (name_off hL hl x.2 _ hop) h0 h1
    · obtain ⟨q, hq, e⟩ := List.mem_map.1 hp
      cases e
      exact place_off hL hd (label_off hL hl q (hl q hq) _ hop) h0 h1
  | _ => cases e

end

/-! ## Texts among themselves -/

theorem raw_spread {o : Options} (hr : o.Roomy) (states : List State) {placed : List (PlacedArrow GroupedArrow)} {levels : Nat}
    {gs : List GroupedArrow} (hle : ∀ g ∈ gs, g.left ≤ g.right) (hp : Placement GroupedArrow.left GroupedArrow.right gs placed levels) {d : Rat}
    (hd : 0 ≤ d) (h1 : d ≤ o.step / 2) (h2 : d ≤ o.floorHeight) :
    Spread (d * o.xScale) ((rawOps o states placed levels).map (Op.place ⟨o.xOffset, o.yOffset⟩ ⟨o.xScale, o.yScale⟩)) := by
  have hx := hr.scaleX
  have hy : 0 < o.yScale := lt_of_lt_of_le hx hr.scaleY
  have hxy : d * o.xScale ≤ d * o.yScale := mul_le_mul_of_nonneg_left hr.scaleY hd
  have hf := hr.floor
  have hR := hr.radius; have hm := hr.margin; have hpd := hr.padding
  have ht := hr.text.1
  have mx : ∀ {u v f : Rat}, d ≤ u - v → d * o.xScale ≤ (u + f) * o.xScale - (v + f) * o.xScale := by
    intro u v f h
    have := mul_le_mul_of_nonneg_right h hx.le
    linarith
  have my : ∀ {u v f : Rat}, d ≤ u - v → d * o.xScale ≤ (u + f) * o.yScale - (v + f) * o.yScale := by
    intro u v f h
    have := mul_le_mul_of_nonneg_right h hy.le
    linarith
  unfold Spread
  rw [texts_place, raw_texts hp.below, List.map_append, List.map_map, List.map_map, List.pairwise_append]
  refine ⟨?_, ?_, ?_⟩
  · rw [List.pairwise_map]
    have : (states.zipIdx.map Prod.snd).Pairwise (· < ·) := by
      rw [List.zipIdx_map_snd]
      exact List.pairwise_lt_range'
    rw [List.pairwise_map] at this
    refine this.imp ?_
    intro x y hlt
    right; left
    refine mx ?_
    have : ((x.2 : Rat)) + 1 ≤ (y.2 : Rat) := by exact_mod_cast hlt
    simp only [Options.stateX]
    nlinarith
  · rw [List.pairwise_map]
    refine List.Pairwise.imp_of_mem ?_ hp.apart
    intro p q hpm hqm hpq
    have lp := hle _ (hp.each.mem_iff.1 (List.mem_map.2 ⟨p, hpm, rfl⟩))
    have lq := hle _ (hp.each.mem_iff.1 (List.mem_map.2 ⟨q, hqm, rfl⟩))
    rcases lt_trichotomy p.level q.level with h | h | h
    · right; right; left
      refine my ?_
      have : (p.level : Rat) + 1 ≤ (q.level : Rat) := by exact_mod_cast h
      simp only [Options.levelY]
      nlinarith
    · right; left
      refine mx ?_
      obtain ⟨b1, b2⟩ := hpq h
      have : p.arrow.left + p.arrow.right + 1 ≤ q.arrow.left + q.arrow.right := by omega
      have : (p.arrow.left : Rat) + (p.arrow.right : Rat) + 1 ≤ (q.arrow.left : Rat) + (q.arrow.right : Rat) := by exact_mod_cast this
      have hs : 0 ≤ o.step := by linarith
      simp only [Options.leftEnd, Options.rightEnd, Options.stateX]
      nlinarith
    · right; right; right
      refine my ?_
      have : (q.level : Rat) + 1 ≤ (p.level : Rat) := by exact_mod_cast h
      simp only [Options.levelY]
      nlinarith
  · intro x hx' y hy'
    obtain ⟨s, _, rfl⟩ := List.mem_map.1 hx'
    obtain ⟨q, _, rfl⟩ := List.mem_map.1 hy'
    right; right; left
    refine my ?_
    have : (0 : Rat) ≤ (q.level : Rat) := Nat.cast_nonneg _
    have := mul_nonneg hf.le this
    simp only [Options.levelY, Options.stateY, Options.baseY]
    linarith

end Draw
end Dandy
