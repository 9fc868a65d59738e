import Verif.Model.DrawF32
import Verif.Spec.F32
import Mathlib.Tactic.Ring
import Mathlib.Tactic.Linarith
import Mathlib.Tactic.FieldSimp
import Mathlib.Tactic.Positivity
/-!
# Exactness of the coordinates: helper lemmas for C100
-/

namespace Dandy
namespace Draw
namespace F32

/-- An integer of at most `M`. -/
def W (M : Nat) (q : Rat) : Prop := ∃ k : Int, q = k ∧ k.natAbs ≤ M

/-- Half of an integer of at most `M`. -/
def H (M : Nat) (q : Rat) : Prop := ∃ k : Int, q = k / 2 ∧ k.natAbs ≤ M

theorem W.mono {M N : Nat} {q : Rat} (h : W M q) (hl : M ≤ N) : W N q := let ⟨k, e, b⟩ := h; ⟨k, e, b.trans hl⟩

theorem H.mono {M N : Nat} {q : Rat} (h : H M q) (hl : M ≤ N) : H N q := let ⟨k, e, b⟩ := h; ⟨k, e, b.trans hl⟩

theorem W.half {M : Nat} {q : Rat} (h : W M q) : H (2 * M) q := by
  obtain ⟨k, rfl, b⟩ := h
  exact ⟨2 * k, by push_cast; ring, by omega⟩

theorem W.add {M N : Nat} {a b : Rat} (ha : W M a) (hb : W N b) : W (M + N) (a + b) := by
  obtain ⟨k, rfl, hk⟩ := ha
  obtain ⟨l, rfl, hl⟩ := hb
  exact ⟨k + l, by push_cast; ring, by omega⟩

theorem W.neg {M : Nat} {a : Rat} (ha : W M a) : W M (-a) := by
  obtain ⟨k, rfl, hk⟩ := ha
  exact ⟨-k, by push_cast; ring, by omega⟩

theorem W.sub {M N : Nat} {a b : Rat} (ha : W M a) (hb : W N b) : W (M + N) (a - b) := sub_eq_add_neg a b ▸ ha.add hb.neg

theorem W.mul {M N : Nat} {a b : Rat} (ha : W M a) (hb : W N b) : W (M * N) (a * b) := by
  obtain ⟨k, rfl, hk⟩ := ha
  obtain ⟨l, rfl, hl⟩ := hb
  exact ⟨k * l, by push_cast; ring, by rw [Int.natAbs_mul]; exact Nat.mul_le_mul hk hl⟩

theorem W.div2 {M : Nat} {a : Rat} (ha : W M a) : H M (a / 2) := let ⟨k, e, b⟩ := ha; ⟨k, by rw [e], b⟩

theorem W.nat {n N : Nat} (h : n ≤ N) : W N (n : Rat) := ⟨n, by push_cast; rfl, by simpa using h⟩

theorem W.two : W 2 (2 : Rat) := ⟨2, by push_cast; rfl, by decide⟩

theorem H.add {M N : Nat} {a b : Rat} (ha : H M a) (hb : H N b) : H (M + N) (a + b) := by
  obtain ⟨k, rfl, hk⟩ := ha
  obtain ⟨l, rfl, hl⟩ := hb
  exact ⟨k + l, by push_cast; ring, by omega⟩

theorem H.sub {M N : Nat} {a b : Rat} (ha : H M a) (hb : H N b) : H (M + N) (a - b) := by
  obtain ⟨k, rfl, hk⟩ := ha
  obtain ⟨l, rfl, hl⟩ := hb
  exact ⟨k - l, by push_cast; ring, by omega⟩

theorem H.mul {M N : Nat} {a b : Rat} (ha : H M a) (hb : W N b) : H (M * N) (a * b) := by
  obtain ⟨k, rfl, hk⟩ := ha
  obtain ⟨l, rfl, hl⟩ := hb
  exact ⟨k * l, by push_cast; ring, by rw [Int.natAbs_mul]; exact Nat.mul_le_mul hk hl⟩

theorem H.isF32 {M : Nat} {q : Rat} (h : H M q) (hM : M ≤ 2 ^ 24) : IsF32 q := by
  obtain ⟨k, rfl, hk⟩ := h
  refine ⟨k, -1, hk.trans hM, by decide, by decide, ?_⟩
  rw [zpow_neg_one]
  ring

variable {r : Rat → Rat} (hr : KeepsF32 r)
include hr

theorem keep {M : Nat} {q : Rat} (h : H M q) (hM : M ≤ 2 ^ 24) : r q = q := hr q (h.isF32 hM)

theorem keepW {M : Nat} {q : Rat} (h : W M q) (hM : 2 * M ≤ 2 ^ 24) : r q = q := hr q (h.half.isF32 hM)

theorem keepI {M : Nat} {q : Rat} (h : W M q) (hM : M ≤ 2 ^ 24) : r q = q := by
  obtain ⟨k, rfl, hk⟩ := h
  exact hr _ ⟨k, 0, hk.trans hM, by decide, by decide, by rw [zpow_zero, mul_one]⟩

/-- The numbers that occur in the options, and the number of states and levels. -/
structure Bounds (o : Options) (L S N : Nat) : Prop where
  whole : o.Whole L S
  one : 1 ≤ S
  big : L * (6 * N + 13) * S ≤ 2 ^ 24
  count : 4 * N ≤ 2 ^ 24

omit hr in
theorem Bounds.room {o : Options} {L S N : Nat} (h : Bounds o L S N) : 6 * (L * N) + 13 * L ≤ 2 ^ 24 := by
  have h1 := h.big
  have h2 := h.one
  have h3 : L * (6 * N + 13) ≤ L * (6 * N + 13) * S := Nat.le_mul_of_pos_right _ h2
  have h4 : L * (6 * N + 13) = 6 * (L * N) + 13 * L := by ring
  omega

section
omit hr
variable {o : Options} {L S N : Nat} (h : Bounds o L S N)
include h

theorem Bounds.len {q : Rat} (hq : q ∈ [o.xOffset, o.yOffset, o.centerLinePadding, o.circleRadius, o.acceptingCircleRadius, o.initArrowLength,
    o.initArrowArmsLength, o.transArrowArmsLength, o.fromLineOffset, o.toLineOffset, o.floorHeight, o.textMargin, o.lineCircleMargin]) : W L q :=
  h.whole.lengths q hq

end

variable {o : Options} {L S N : Nat} (h : Bounds o L S N)
include h

theorem xPos_eq {idx : Nat} (hi : idx ≤ N) : xPos r o idx = Draw.xPos o idx ∧ W (3 * L + 3 * (L * N)) (Draw.xPos o idx) := by
  have hroom := h.room
  have hcount := h.count
  have w1 := (h.len (q := o.initArrowLength) (by simp)).add (h.len (q := o.centerLinePadding) (by simp))
  have w2 := w1.add (h.len (q := o.circleRadius) (by simp))
  have w3 := (h.len (q := o.circleRadius) (by simp)).mul W.two
  have w4 := w3.add (h.len (q := o.centerLinePadding) (by simp))
  have w5 := w4.mul (W.nat hi)
  have e : (L * 2 + L) * N = 3 * (L * N) := by ring
  rw [e] at w5
  have w6 := w2.add w5
  refine ⟨?_, w6.mono (by omega)⟩
  unfold xPos Draw.xPos F32.add F32.mul
  rw [keepW hr w1 (by omega), keepW hr w2 (by omega), keepW hr w3 (by omega), keepW hr w4 (by omega), keepW hr (W.nat hi) (by omega),
    keepW hr w5 (by omega), keepW hr w6 (by omega)]

theorem xFrom_eq {idx : Nat} (hi : idx ≤ N) : xFromPos r o idx = Draw.xFromPos o idx ∧ W (4 * L + 3 * (L * N)) (Draw.xFromPos o idx) := by
  have hroom := h.room
  obtain ⟨e, w⟩ := xPos_eq hr h hi
  have w' := w.add (h.len (q := o.fromLineOffset) (by simp))
  refine ⟨?_, w'.mono (by omega)⟩
  unfold xFromPos Draw.xFromPos F32.add
  rw [e, keepW hr w' (by omega)]

theorem xTo_eq {idx : Nat} (hi : idx ≤ N) : xToPos r o idx = Draw.xToPos o idx ∧ W (4 * L + 3 * (L * N)) (Draw.xToPos o idx) := by
  have hroom := h.room
  obtain ⟨e, w⟩ := xPos_eq hr h hi
  have w' := w.sub (h.len (q := o.toLineOffset) (by simp))
  refine ⟨?_, w'.mono (by omega)⟩
  unfold xToPos Draw.xToPos F32.sub
  rw [e, keepW hr w' (by omega)]

theorem baseline_eq {levels : Nat} (hl : levels + 1 ≤ N) : lineBaseline r o levels = Draw.lineBaseline o levels ∧ W (L * N) (Draw.lineBaseline o levels) := by
  have hroom := h.room
  have hcount := h.count
  have w := (W.nat hl).mul (h.len (q := o.floorHeight) (by simp))
  rw [Nat.mul_comm N L] at w
  refine ⟨?_, w⟩
  unfold lineBaseline Draw.lineBaseline F32.mul
  rw [keepW hr (W.nat hl) (by omega), keepW hr w (by omega)]

theorem center_eq {levels : Nat} (hl : levels + 1 ≤ N) :
    circleCenter r o levels = Draw.circleCenter o levels ∧ W (L * N + 2 * L) (Draw.circleCenter o levels) := by
  have hroom := h.room
  obtain ⟨e, w⟩ := baseline_eq hr h hl
  have w1 := w.add (h.len (q := o.lineCircleMargin) (by simp))
  have w2 := w1.add (h.len (q := o.circleRadius) (by simp))
  refine ⟨?_, w2.mono (by omega)⟩
  unfold circleCenter Draw.circleCenter F32.add
  rw [e, keepW hr w1 (by omega), keepW hr w2 (by omega)]

omit hr h

/-- All coordinates are halves of integers of at most `M`. -/
def Ok (M : Nat) : Op → Prop
  | .circle p radius _ => H M p.x ∧ H M p.y ∧ H M radius
  | .text p _ => H M p.x ∧ H M p.y
  | .line a b _ => H M a.x ∧ H M a.y ∧ H M b.x ∧ H M b.y
  | _ => True

include hr h

theorem point_eq {a off sc : Rat} (ho : W L off) (hs : W S sc) (ha : H (6 * (L * N) + 11 * L) a) : r (r (a + off) * sc) = (a + off) * sc := by
  have hroom := h.room
  have hbig := h.big
  have w1 : H (6 * (L * N) + 13 * L) (a + off) := (ha.add ho.half).mono (by omega)
  have w2 := w1.mul hs
  have e : (6 * (L * N) + 13 * L) = L * (6 * N + 13) := by ring
  rw [keep hr w1 hroom, keep hr w2 (by rw [e]; exact hbig)]

theorem place_eq {op : Op} (hop : Ok (6 * (L * N) + 11 * L) op) :
    place r ⟨o.xOffset, o.yOffset⟩ ⟨o.xScale, o.yScale⟩ op = Op.place ⟨o.xOffset, o.yOffset⟩ ⟨o.xScale, o.yScale⟩ op := by
  have ox := h.len (q := o.xOffset) (by simp)
  have oy := h.len (q := o.yOffset) (by simp)
  have sx : W S o.xScale := h.whole.scales _ (by simp)
  have sy : W S o.yScale := h.whole.scales _ (by simp)
  have pt : ∀ p : Pos2, H (6 * (L * N) + 11 * L) p.x → H (6 * (L * N) + 11 * L) p.y →
      mulP r (addP r p ⟨o.xOffset, o.yOffset⟩) ⟨o.xScale, o.yScale⟩ = (p + ⟨o.xOffset, o.yOffset⟩) * ⟨o.xScale, o.yScale⟩ := by
    intro p hx hy
    have e1 := point_eq hr h ox sx hx
    have e2 := point_eq hr h oy sy hy
    unfold mulP addP F32.mul F32.add
    rw [e1, e2]
    rfl
  cases op with
  | start => rfl
  | finish => rfl
  | color _ => rfl
  | circle p radius t =>
    obtain ⟨h1, h2, h3⟩ := hop
    simp only [place, Op.place]
    rw [pt p h1 h2]
    have hbig := h.big
    have e : (6 * (L * N) + 13 * L) = L * (6 * N + 13) := by ring
    have h4 := (h3.mono (show 6 * (L * N) + 11 * L ≤ 6 * (L * N) + 13 * L by omega)).mul sx
    unfold F32.mul
    rw [keep hr h4 (by rw [e]; exact hbig)]
  | text p s =>
    simp only [place, Op.place]
    rw [pt p hop.1 hop.2]
  | line a b t =>
    obtain ⟨h1, h2, h3, h4⟩ := hop
    simp only [place, Op.place]
    rw [pt a h1 h2, pt b h3 h4]

theorem init_eq {levels : Nat} (hl : levels + 1 ≤ N) : initOps r o levels = Draw.initOps o levels ∧
    ∀ op ∈ Draw.initOps o levels, Ok (6 * (L * N) + 11 * L) op := by
  have hroom := h.room
  obtain ⟨e, w⟩ := center_eq hr h hl
  have a := h.len (q := o.initArrowLength) (by simp)
  have b := h.len (q := o.initArrowArmsLength) (by simp)
  have w1 := a.sub b
  have w2 := w.sub b
  have w3 := w.sub b.neg
  constructor
  · simp only [initOps, Draw.initOps, subP, F32.sub]
    rw [e, keepW hr w1 (by omega), keepW hr w2 (by omega), keepW hr w3 (by omega)]
    rfl
  · have z : W 0 (0 : Rat) := ⟨0, by push_cast; rfl, by decide⟩
    simp only [Draw.initOps, List.mem_cons, List.not_mem_nil, or_false]
    rintro op (rfl | rfl | rfl | rfl)
    · trivial
    · exact ⟨z.half.mono (by omega), w.half.mono (by omega), a.half.mono (by omega), w.half.mono (by omega)⟩
    · exact ⟨a.half.mono (by omega), w.half.mono (by omega), w1.half.mono (by omega), w2.half.mono (by omega)⟩
    · exact ⟨a.half.mono (by omega), w.half.mono (by omega), w1.half.mono (by omega), w3.half.mono (by omega)⟩

theorem state_eq {levels idx : Nat} (hl : levels + 1 ≤ N) (hi : idx ≤ N) (s : State) : stateOps r o levels idx s = Draw.stateOps o levels idx s ∧
    ∀ op ∈ Draw.stateOps o levels idx s, Ok (6 * (L * N) + 11 * L) op := by
  have hroom := h.room
  obtain ⟨e, w⟩ := center_eq hr h hl
  obtain ⟨ex, x⟩ := xPos_eq hr h hi
  have cr := h.len (q := o.circleRadius) (by simp)
  have ar := h.len (q := o.acceptingCircleRadius) (by simp)
  have cp := h.len (q := o.centerLinePadding) (by simp)
  have a := h.len (q := o.initArrowLength) (by simp)
  have b := h.len (q := o.initArrowArmsLength) (by simp)
  have z : W 0 (0 : Rat) := ⟨0, by push_cast; rfl, by decide⟩
  have w1 := cr.add cp
  have x1 := x.add z
  have y1 := w.add w1
  have x2 := x1.add z
  have y2 := y1.add a
  have x3 := x1.add b
  have y3 := y1.add b
  have x4 := x1.add b.neg
  constructor
  · simp only [stateOps, Draw.stateOps, addP, F32.add, Pos2.ofY]
    rw [e, ex, keepW hr w1 (by omega), keepW hr x1 (by omega), keepW hr y1 (by omega), keepW hr x2 (by omega), keepW hr y2 (by omega),
      keepW hr x3 (by omega), keepW hr y3 (by omega), keepW hr x4 (by omega)]
    rfl
  · simp only [Draw.stateOps, List.mem_append, List.mem_cons, List.not_mem_nil, or_false]
    rintro op ((((rfl | rfl) | hop) | hop) | (rfl | rfl))
    · trivial
    · exact ⟨x.half.mono (by omega), w.half.mono (by omega), cr.half.mono (by omega)⟩
    · split at hop
      · rw [List.mem_singleton.1 hop]
        exact ⟨x.half.mono (by omega), w.half.mono (by omega), ar.half.mono (by omega)⟩
      · cases hop
    · split at hop
      · simp only [List.mem_cons, List.not_mem_nil, or_false] at hop
        rcases hop with rfl | rfl | rfl | rfl
        · trivial
        · exact ⟨x1.half.mono (by omega), y1.half.mono (by omega), x2.half.mono (by omega), y2.half.mono (by omega)⟩
        · exact ⟨x1.half.mono (by omega), y1.half.mono (by omega), x3.half.mono (by omega), y3.half.mono (by omega)⟩
        · exact ⟨x1.half.mono (by omega), y1.half.mono (by omega), x4.half.mono (by omega), y3.half.mono (by omega)⟩
      · cases hop
    · trivial
    · exact ⟨x.half.mono (by omega), w.half.mono (by omega)⟩

theorem arrow_eq {levels : Nat} (hl : levels + 1 ≤ N) (a : PlacedArrow GroupedArrow) (h1 : a.arrow.left ≤ N) (h2 : a.arrow.right ≤ N) :
    arrowOps r o levels a = Draw.arrowOps o levels a ∧ ∀ op ∈ Draw.arrowOps o levels a, Ok (6 * (L * N) + 11 * L) op := by
  have hroom := h.room
  have hcount := h.count
  obtain ⟨ef, f⟩ := xFrom_eq hr h h1
  obtain ⟨et, t⟩ := xTo_eq hr h h2
  obtain ⟨eb, bl⟩ := baseline_eq hr h hl
  have hn := W.nat (show levels - a.level ≤ N by omega)
  have ht := (h.len (q := o.floorHeight) (by simp)).mul hn
  have ta := h.len (q := o.transArrowArmsLength) (by simp)
  have tm := h.len (q := o.textMargin) (by simp)
  have hd : W 1 (if a.arrow.direction = .left then (1 : Rat) else -1) := by
    split
    · exact ⟨1, by push_cast; rfl, by decide⟩
    · exact ⟨-1, by push_cast; rfl, by decide⟩
  have s0 := f.add t
  have m := s0.div2
  have d1 := ta.mul hd
  have d2 := d1.div2
  have m2 := m.sub d2
  have d3 := hd.mul ta
  have m3 := m2.add d3.half
  have y1 := ht.add ta
  have y2 := ht.sub ta
  have y3 := ht.sub tm
  have b1 := bl.sub ta
  have t1 := t.sub ta
  have t2 := t.sub ta.neg
  have f1 := f.sub ta
  have f2 := f.sub ta.neg
  have half : ∀ q : Rat, q * (1 / 2) = q / 2 := fun q => by ring
  constructor
  · simp only [arrowOps, Draw.arrowOps, subP, F32.add, F32.sub, F32.mul, F32.div, half]
    rw [ef, et, eb, keepW hr hn (by omega), keepW hr ht (by omega), keepI hr s0 (by omega), keep hr m (by omega), keepW hr d1 (by omega),
      keep hr d2 (by omega), keep hr m2 (by omega), keepW hr d3 (by omega), keep hr m3 (by omega), keepW hr y1 (by omega), keepW hr y2 (by omega),
      keepW hr y3 (by omega)]
    congr 2
    split
    · by_cases hdir : a.arrow.direction = .right
      · simp only [hdir, if_true]
        rw [keepW hr t1 (by omega), keepW hr t2 (by omega), keepW hr b1 (by omega)]
        rfl
      · simp only [hdir, if_false]
        rw [keepW hr f1 (by omega), keepW hr f2 (by omega), keepW hr b1 (by omega)]
        rfl
    · rfl
  · simp only [Draw.arrowOps, List.mem_append, List.mem_cons, List.not_mem_nil, or_false, half]
    rintro op ((((rfl | rfl | rfl | rfl) | hop) | hop) | (rfl | rfl))
    · trivial
    · exact ⟨f.half.mono (by omega), bl.half.mono (by omega), f.half.mono (by omega), ht.half.mono (by omega)⟩
    · exact ⟨t.half.mono (by omega), bl.half.mono (by omega), t.half.mono (by omega), ht.half.mono (by omega)⟩
    · exact ⟨f.half.mono (by omega), ht.half.mono (by omega), t.half.mono (by omega), ht.half.mono (by omega)⟩
    · split at hop
      · simp only [List.mem_cons, List.not_mem_nil, or_false] at hop
        rcases hop with rfl | rfl
        · exact ⟨m2.mono (by omega), ht.half.mono (by omega), m3.mono (by omega), y1.half.mono (by omega)⟩
        · exact ⟨m2.mono (by omega), ht.half.mono (by omega), m3.mono (by omega), y2.half.mono (by omega)⟩
      · cases hop
    · split at hop
      · by_cases hdir : a.arrow.direction = .right
        · simp only [hdir, if_true, List.mem_cons, List.not_mem_nil, or_false] at hop
          rcases hop with rfl | rfl
          · exact ⟨t.half.mono (by omega), bl.half.mono (by omega), t1.half.mono (by omega), b1.half.mono (by omega)⟩
          · exact ⟨t.half.mono (by omega), bl.half.mono (by omega), t2.half.mono (by omega), b1.half.mono (by omega)⟩
        · simp only [hdir, if_false, List.mem_cons, List.not_mem_nil, or_false] at hop
          rcases hop with rfl | rfl
          · exact ⟨f.half.mono (by omega), bl.half.mono (by omega), f1.half.mono (by omega), b1.half.mono (by omega)⟩
          · exact ⟨f.half.mono (by omega), bl.half.mono (by omega), f2.half.mono (by omega), b1.half.mono (by omega)⟩
      · cases hop
    · trivial
    · exact ⟨m.mono (by omega), y3.half.mono (by omega)⟩

end F32
end Draw
end Dandy
