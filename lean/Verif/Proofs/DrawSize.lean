import Verif.Spec.DrawSize
import Verif.Proofs.DrawBox
/-! # What the options of a drawing do, and the distance of lines and circles -/

namespace Dandy
namespace Draw

private theorem add_x (a b : Pos2) : (a + b).x = a.x + b.x := rfl
private theorem add_y (a b : Pos2) : (a + b).y = a.y + b.y := rfl
private theorem sub_x (a b : Pos2) : (a - b).x = a.x - b.x := rfl
private theorem sub_y (a b : Pos2) : (a - b).y = a.y - b.y := rfl
private theorem mul_x (a b : Pos2) : (a * b).x = a.x * b.x := rfl
private theorem mul_y (a b : Pos2) : (a * b).y = a.y * b.y := rfl

private theorem pos_eq {p q : Pos2} (h1 : p.x = q.x) (h2 : p.y = q.y) : p = q := by
  cases p; cases q; cases h1; cases h2; rfl

private theorem add_mk (a b : Pos2) : a + b = ⟨a.x + b.x, a.y + b.y⟩ := rfl
private theorem sub_mk (a b : Pos2) : a - b = ⟨a.x - b.x, a.y - b.y⟩ := rfl

/-! ## Offset and scale -/

theorem place_shifted (offset scale v : Pos2) (op : Op) :
    op.place (offset + v) scale = (op.place offset scale).shifted (v * scale) := by
  have e : ∀ p : Pos2, (p + (offset + v)) * scale = ⟨((p + offset) * scale).x + (v * scale).x, ((p + offset) * scale).y + (v * scale).y⟩ := by
    intro p
    apply pos_eq <;> simp only [add_x, add_y, mul_x, mul_y] <;> ring
  cases op <;> simp only [Op.place, Op.shifted, e]

theorem place_grown (offset scale : Pos2) (k : Rat) (op : Op) :
    op.place offset ⟨k * scale.x, k * scale.y⟩ = (op.place offset scale).grown k := by
  have e : ∀ p : Pos2, (p + offset) * ⟨k * scale.x, k * scale.y⟩ = ⟨k * ((p + offset) * scale).x, k * ((p + offset) * scale).y⟩ := by
    intro p
    apply pos_eq <;> simp only [add_x, add_y, mul_x, mul_y] <;> ring
  cases op <;> simp only [Op.place, Op.grown, e, Op.circle.injEq, true_and, and_true]
  ring

theorem grown_place (offset scale : Pos2) (k : Rat) (op : Op) :
    (op.grown k).place ⟨k * offset.x, k * offset.y⟩ scale = (op.place offset scale).grown k := by
  have e : ∀ p : Pos2, ((⟨k * p.x, k * p.y⟩ : Pos2) + ⟨k * offset.x, k * offset.y⟩) * scale = ⟨k * ((p + offset) * scale).x, k * ((p + offset) * scale).y⟩ := by
    intro p
    apply pos_eq <;> simp only [add_x, add_y, mul_x, mul_y] <;> ring
  cases op <;> simp only [Op.place, Op.grown, e, Op.circle.injEq, true_and, and_true]
  ring

theorem bare_place (offset scale : Pos2) (op : Op) : (op.place offset scale).bare = op.bare.place offset scale := by
  cases op <;> rfl

theorem isLine_place (offset scale : Pos2) (op : Op) : (op.place offset scale).isLine = op.isLine := by
  cases op <;> rfl

/-! ## Sizes -/

private theorem xPos_grown (k : Rat) (o : Options) (i : Nat) : xPos (o.grown k) i = k * xPos o i := by
  simp only [xPos, Options.grown]; ring

private theorem base_grown (k : Rat) (o : Options) (l : Nat) : lineBaseline (o.grown k) l = k * lineBaseline o l := by
  simp only [lineBaseline, Options.grown]; ring

private theorem center_grown (k : Rat) (o : Options) (l : Nat) : circleCenter (o.grown k) l = k * circleCenter o l := by
  simp only [circleCenter, base_grown]; simp only [Options.grown]; ring

private theorem line_eq {x y x' y' u v u' v' t : Rat} (h1 : x = u) (h2 : y = v) (h3 : x' = u') (h4 : y' = v') :
    Op.line ⟨x, y⟩ ⟨x', y'⟩ t = Op.line ⟨u, v⟩ ⟨u', v'⟩ t := by rw [h1, h2, h3, h4]

section fields
variable (k : Rat) (o : Options)

private theorem f1 : (o.grown k).initArrowLength = k * o.initArrowLength := rfl
private theorem f2 : (o.grown k).initArrowArmsLength = k * o.initArrowArmsLength := rfl
private theorem f3 : (o.grown k).floorHeight = k * o.floorHeight := rfl
private theorem f4 : (o.grown k).transArrowArmsLength = k * o.transArrowArmsLength := rfl
private theorem f5 : (o.grown k).fromLineOffset = k * o.fromLineOffset := rfl
private theorem f6 : (o.grown k).toLineOffset = k * o.toLineOffset := rfl
private theorem f7 : (o.grown k).textMargin = k * o.textMargin := rfl
private theorem f8 : (o.grown k).circleRadius = k * o.circleRadius := rfl
private theorem f9 : (o.grown k).acceptingCircleRadius = k * o.acceptingCircleRadius := rfl
private theorem f10 : (o.grown k).centerLinePadding = k * o.centerLinePadding := rfl
private theorem g1 : (o.grown k).middleArrow = o.middleArrow := rfl
private theorem g2 : (o.grown k).endArrow = o.endArrow := rfl
private theorem g3 : (o.grown k).transLineWidth = o.transLineWidth := rfl
private theorem g4 : (o.grown k).initArrowWidth = o.initArrowWidth := rfl
private theorem g5 : (o.grown k).circleWidth = o.circleWidth := rfl
private theorem g6 : (o.grown k).acceptingCircleWidth = o.acceptingCircleWidth := rfl
private theorem g7 : (o.grown k).lineColor = o.lineColor := rfl
private theorem g8 : (o.grown k).textColor = o.textColor := rfl
private theorem g9 : (o.grown k).circleColor = o.circleColor := rfl

end fields

theorem init_grown (k : Rat) (o : Options) (l : Nat) : initOps (o.grown k) l = (initOps o l).map (Op.grown k) := by
  simp only [initOps, center_grown, sub_mk, List.map_cons, List.map_nil, Op.grown, f1, f2, g4, g7, List.cons.injEq, and_true, true_and]
  refine ⟨?_, ?_, ?_⟩ <;> apply line_eq <;> ring

theorem state_grown (k : Rat) (o : Options) (l i : Nat) (s : State) : stateOps (o.grown k) l i s = (stateOps o l i s).map (Op.grown k) := by
  simp only [stateOps, xPos_grown, center_grown, add_mk, Pos2.ofY, List.map_append, f1, f2, f8, f9, f10, g4, g5, g6, g7, g8, g9]
  refine congr (congrArg _ (congr (congrArg _ (congr (congrArg _ rfl) ?_)) ?_)) rfl
  · split <;> rfl
  · split
    · simp only [List.map_cons, List.map_nil, Op.grown, List.cons.injEq, true_and, and_true]
      refine ⟨?_, ?_, ?_⟩ <;> apply line_eq <;> ring
    · rfl

theorem arrow_grown (k : Rat) (o : Options) (l : Nat) (a : PlacedArrow GroupedArrow) :
    arrowOps (o.grown k) l a = (arrowOps o l a).map (Op.grown k) := by
  simp only [arrowOps, xFromPos, xToPos, xPos_grown, base_grown, f3, f4, f5, f6, f7, g1, g2, g3, g7, g8, List.map_append]
  refine congr (congrArg _ (congr (congrArg _ (congr (congrArg _ ?_) ?_)) ?_)) ?_
  · simp only [List.map_cons, List.map_nil, Op.grown, List.cons.injEq, true_and, and_true]
    refine ⟨?_, ?_, ?_⟩ <;> apply line_eq <;> ring
  · split
    · split <;> simp only [List.map_cons, List.map_nil, Op.grown, List.cons.injEq, true_and, and_true] <;> constructor <;> apply line_eq <;> ring
    · rfl
  · split
    · split <;> simp only [sub_mk, List.map_cons, List.map_nil, Op.grown, List.cons.injEq, true_and, and_true] <;> constructor <;> apply line_eq <;> ring
    · rfl
  · simp only [List.map_cons, List.map_nil, Op.grown, List.cons.injEq, true_and, and_true, Op.text.injEq, Pos2.mk.injEq]
    constructor <;> ring

theorem raw_grown (k : Rat) (o : Options) (states : List State) (placed : List (PlacedArrow GroupedArrow)) (levels : Nat) :
    rawOps (o.grown k) states placed levels = (rawOps o states placed levels).map (Op.grown k) := by
  have e : arrowOps (o.grown k) levels = fun a => (arrowOps o levels a).map (Op.grown k) := funext (arrow_grown k o levels)
  simp only [rawOps, List.map_append, List.map_flatMap, init_grown, state_grown, e]
  rfl

/-! ## Widths, colours, tips -/

private theorem ite_map {α β : Type} (f : α → β) (b : Bool) (l l' : List α) : (if b = true then l else l').map f = if b = true then l.map f else l'.map f := by
  split <;> rfl

theorem raw_styled (a b c d : Rat) (e f g : Color) (o : Options) (states : List State) (placed : List (PlacedArrow GroupedArrow)) (levels : Nat) :
    (rawOps (o.styled a b c d e f g) states placed levels).map Op.bare = (rawOps o states placed levels).map Op.bare := by
  have h1 : ∀ s i, (stateOps (o.styled a b c d e f g) levels i s).map Op.bare = (stateOps o levels i s).map Op.bare := by
    intro s i
    simp only [stateOps, List.map_append, ite_map]
    rfl
  have h2 : ∀ p, (arrowOps (o.styled a b c d e f g) levels p).map Op.bare = (arrowOps o levels p).map Op.bare := by
    intro p
    simp only [arrowOps, List.map_append, ite_map]
    rfl
  have h3 : (initOps (o.styled a b c d e f g) levels).map Op.bare = (initOps o levels).map Op.bare := rfl
  simp only [rawOps, List.map_append, List.map_flatMap, h1, h2, h3]

private theorem flatMap_sublist {α β : Type} {f g : α → List β} (h : ∀ a, (f a).Sublist (g a)) : ∀ l : List α, (l.flatMap f).Sublist (l.flatMap g)
  | [] => List.Sublist.refl _
  | a :: l => by rw [List.flatMap_cons, List.flatMap_cons]; exact (h a).append (flatMap_sublist h l)

theorem raw_tips (m e : Bool) (o : Options) (states : List State) (placed : List (PlacedArrow GroupedArrow)) (levels : Nat) :
    (rawOps { o with middleArrow := m && o.middleArrow, endArrow := e && o.endArrow } states placed levels).Sublist (rawOps o states placed levels) ∧
    (rawOps { o with middleArrow := m && o.middleArrow, endArrow := e && o.endArrow } states placed levels).filter (fun op => !op.isLine) =
      (rawOps o states placed levels).filter (fun op => !op.isLine) := by
  have h1 : ∀ p, (arrowOps { o with middleArrow := m && o.middleArrow, endArrow := e && o.endArrow } levels p).Sublist (arrowOps o levels p) := by
    intro p
    unfold arrowOps
    refine (((List.Sublist.refl _).append ?_).append ?_).append (List.Sublist.refl _)
    · cases m
      · exact List.nil_sublist _
      · exact List.Sublist.refl _
    · cases e
      · exact List.nil_sublist _
      · exact List.Sublist.refl _
  have h2 : ∀ p, (arrowOps { o with middleArrow := m && o.middleArrow, endArrow := e && o.endArrow } levels p).filter (fun op => !op.isLine) =
      (arrowOps o levels p).filter (fun op => !op.isLine) := by
    intro p
    unfold arrowOps
    simp only [List.filter_append]
    congr 1
    congr 1
    · congr 1
      cases m <;> cases hm : o.middleArrow <;> rfl
    · cases e <;> cases he : o.endArrow <;> rfl
  have h3 : ∀ s i, stateOps { o with middleArrow := m && o.middleArrow, endArrow := e && o.endArrow } levels i s = stateOps o levels i s := fun _ _ => rfl
  have h4 : initOps { o with middleArrow := m && o.middleArrow, endArrow := e && o.endArrow } levels = initOps o levels := rfl
  constructor
  · unfold rawOps
    simp only [h3, h4]
    exact ((List.Sublist.refl _).append (flatMap_sublist h1 placed)).append (List.Sublist.refl _)
  · unfold rawOps
    simp only [h3, h4, List.filter_append, List.filter_flatMap, h2]

/-! ## Lines and circles -/

section clear
variable {o : Options} (hr : o.Roomy) (hm : 0 < o.lineCircleMargin) (hp : 0 < o.centerLinePadding)

/-- A line in a part of the drawing without circles: left, above or below. -/
def Op.Beside (o : Options) (levels : Nat) : Op → Prop
  | .line a b _ => a.x ≤ o.initArrowLength ∧ b.x ≤ o.initArrowLength ∨ a.y ≤ o.baseY levels ∧ b.y ≤ o.baseY levels ∨
      o.stateY levels + o.circleRadius + o.centerLinePadding ≤ a.y ∧ o.stateY levels + o.circleRadius + o.centerLinePadding ≤ b.y
  | _ => True

include hr in
theorem raw_beside {states : List State} {placed : List (PlacedArrow GroupedArrow)} {levels : Nat}
    (hl : ∀ p ∈ placed, p.level < levels) : ∀ op ∈ rawOps o states placed levels, op.Beside o levels := by
  obtain ⟨i1, i2, i3⟩ := hr.init
  obtain ⟨a1, a2⟩ := hr.arms
  have hf := hr.floor
  intro op hop
  simp only [rawOps, List.mem_append, List.mem_flatMap, List.mem_singleton] at hop
  rcases hop with (((rfl | hop) | ⟨x, hx, hop⟩) | ⟨p, hpm, hop⟩) | rfl
  · trivial
  · simp only [initOps, List.mem_cons, List.not_mem_nil, or_false] at hop
    rcases hop with rfl | rfl | rfl | rfl
    · trivial
    all_goals
      left
      constructor <;> simp only [sub_x] <;> linarith
  · simp only [stateOps, circleCenter_eq, List.mem_append, List.mem_cons, List.not_mem_nil, or_false] at hop
    rcases hop with (((rfl | rfl) | hop) | hop) | rfl | rfl
    · trivial
    · trivial
    · split at hop
      · rw [List.mem_singleton] at hop
        subst hop
        trivial
      · cases hop
    · split at hop
      · simp only [List.mem_cons, List.not_mem_nil, or_false] at hop
        rcases hop with rfl | rfl | rfl | rfl
        · trivial
        all_goals
          right; right
          constructor <;> simp only [add_y, Pos2.ofY] <;> linarith
      · cases hop
    · trivial
    · trivial
  · have hl' := hl p hpm
    have y2 : o.levelY levels p.level + o.floorHeight ≤ o.baseY levels := by
      have : (0 : Rat) ≤ (p.level : Rat) := Nat.cast_nonneg _
      have := mul_nonneg hf.le this
      unfold Options.levelY Options.baseY
      linarith
    have line : ∀ {x y x' y' t : Rat}, y ≤ o.baseY levels → y' ≤ o.baseY levels → (Op.line ⟨x, y⟩ ⟨x', y'⟩ t).Beside o levels :=
      fun h h' => Or.inr (Or.inl ⟨h, h'⟩)
    simp only [arrowOps, lineBaseline_eq, levelY_eq hl', List.mem_append, List.mem_cons, List.not_mem_nil, or_false, sub_mk] at hop
    rcases hop with (((rfl | rfl | rfl | rfl) | hop) | hop) | rfl | rfl
    · trivial
    · apply line <;> linarith
    · apply line <;> linarith
    · apply line <;> linarith
    · split at hop
      · simp only [List.mem_cons, List.not_mem_nil, or_false] at hop
        rcases hop with rfl | rfl
        all_goals apply line <;> linarith
      · cases hop
    · split at hop
      · simp only [List.mem_cons, List.not_mem_nil, or_false] at hop
        rcases hop with rfl | rfl
        all_goals
          split
          all_goals
            refine line ?_ ?_
            all_goals linarith
      · cases hop
    · trivial
    · trivial
  · trivial

private theorem along_le {a b c t : Rat} (h0 : 0 ≤ t) (h1 : t ≤ 1) (ha : a ≤ c) (hb : b ≤ c) : a + t * (b - a) ≤ c := by nlinarith

private theorem le_along {a b c t : Rat} (h0 : 0 ≤ t) (h1 : t ≤ 1) (ha : c ≤ a) (hb : c ≤ b) : c ≤ a + t * (b - a) := by nlinarith

private theorem sq_of {r d e : Rat} (hr : 0 ≤ r) (h : r < d ∨ r < -d) : r ^ 2 < d ^ 2 + e ^ 2 := by
  rcases h with h | h <;> nlinarith [sq_nonneg e]

include hr hm hp in
theorem raw_clear {states : List State} {placed : List (PlacedArrow GroupedArrow)} {levels : Nat} (hl : ∀ p ∈ placed, p.level < levels) :
    Clear ((rawOps o states placed levels).map (Op.place ⟨o.xOffset, o.yOffset⟩ ⟨o.xScale, o.yScale⟩)) := by
  rintro a b ⟨w, hab⟩ c r hc t h0 h1
  have hx := hr.scaleX
  have hy : 0 < o.yScale := lt_of_lt_of_le hx hr.scaleY
  obtain ⟨j1, j2⟩ := hr.inner
  have hR := hr.radius
  rw [circles_place, raw_circles] at hc
  obtain ⟨⟨c', r'⟩, hc', e⟩ := List.mem_map.1 hc
  cases e
  obtain ⟨⟨s, i⟩, _, hc'⟩ := List.mem_flatMap.1 hc'
  have hcr : c' = ⟨o.stateX i, o.stateY levels⟩ ∧ 0 ≤ r' ∧ r' ≤ o.circleRadius := by
    rcases List.mem_cons.1 hc' with e | hc'
    · cases e; exact ⟨rfl, hR.le, le_refl _⟩
    · split at hc'
      · cases List.mem_singleton.1 hc'; exact ⟨rfl, j1, j2⟩
      · cases hc'
  obtain ⟨rfl, r0, r1⟩ := hcr
  obtain ⟨op, hop, e⟩ := List.mem_map.1 hab
  cases op with
  | line a' b' w' =>
    cases e
    have hb := raw_beside hr hl _ hop
    have hrx : r' * o.xScale ≤ o.circleRadius * o.xScale := mul_le_mul_of_nonneg_right r1 hx.le
    have hry : o.circleRadius * o.xScale ≤ o.circleRadius * o.yScale := mul_le_mul_of_nonneg_left hr.scaleY hR.le
    have hn : 0 ≤ r' * o.xScale := mul_nonneg r0 hx.le
    have hsx : o.initArrowLength + o.centerLinePadding + o.circleRadius ≤ o.stateX i := by
      have : 0 ≤ o.step * (i : Rat) := mul_nonneg (by unfold Options.step; linarith) (Nat.cast_nonneg _)
      unfold Options.stateX
      linarith
    unfold Outside
    rcases hb with ⟨g1, g2⟩ | ⟨g1, g2⟩ | ⟨g1, g2⟩
    · refine sq_of hn (Or.inr ?_)
      have := along_le h0 h1 (mul_le_mul_of_nonneg_right (add_le_add_left g1 o.xOffset) hx.le)
        (mul_le_mul_of_nonneg_right (add_le_add_left g2 o.xOffset) hx.le)
      have k1 := mul_le_mul_of_nonneg_right hsx hx.le
      have k2 := mul_pos hp hx
      simp only [Pos2.along, Options.onCanvas, add_x, mul_x] at this ⊢
      linarith
    · rw [add_comm]
      refine sq_of hn (Or.inr ?_)
      have := along_le h0 h1 (mul_le_mul_of_nonneg_right (add_le_add_left g1 o.yOffset) hy.le)
        (mul_le_mul_of_nonneg_right (add_le_add_left g2 o.yOffset) hy.le)
      have k2 := mul_pos hm hy
      simp only [Pos2.along, Options.onCanvas, add_y, mul_y, Options.stateY] at this ⊢
      linarith
    · rw [add_comm]
      refine sq_of hn (Or.inl ?_)
      have := le_along h0 h1 (mul_le_mul_of_nonneg_right (add_le_add_left g1 o.yOffset) hy.le)
        (mul_le_mul_of_nonneg_right (add_le_add_left g2 o.yOffset) hy.le)
      have k2 := mul_pos hp hy
      simp only [Pos2.along, Options.onCanvas, add_y, mul_y, Options.stateY] at this ⊢
      linarith
  | _ => cases e

end clear

end Draw
end Dandy
