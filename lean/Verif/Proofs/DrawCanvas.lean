import Verif.Proofs.DrawPicture
import Mathlib.Tactic.Linarith
import Mathlib.Tactic.Positivity
import Mathlib.Tactic.Ring
import Mathlib.Algebra.Order.Ring.Rat
/-! # Drawing on a canvas -/

namespace Dandy
namespace Draw

variable {o : Options}

theorem xPos_eq (i : Nat) : xPos o i = o.stateX i := rfl

theorem lineBaseline_eq (levels : Nat) : lineBaseline o levels = o.baseY levels := by
  unfold lineBaseline Options.baseY
  push_cast
  rfl

theorem circleCenter_eq (levels : Nat) : circleCenter o levels = o.stateY levels := by
  unfold circleCenter Options.stateY
  rw [lineBaseline_eq]

theorem levelY_eq {levels level : Nat} (h : level < levels) : o.floorHeight * ((levels - level : Nat) : Rat) = o.levelY levels level := by
  unfold Options.levelY
  rw [Nat.cast_sub (Nat.le_of_lt h)]

theorem place_eq (p : Pos2) : (p + ⟨o.xOffset, o.yOffset⟩) * ⟨o.xScale, o.yScale⟩ = o.onCanvas p.x p.y := rfl

/-- What `draw` sends to the drawer, without offset and scale. -/
def rawOps (o : Options) (states : List State) (placed : List (PlacedArrow GroupedArrow)) (levels : Nat) : List Op :=
  [Op.start] ++ initOps o levels ++ (states.zipIdx.flatMap (fun x => stateOps o levels x.2 x.1)) ++
    placed.flatMap (arrowOps o levels) ++ [Op.finish]

theorem texts_append (a b : List Op) : texts (a ++ b) = texts a ++ texts b := by
  unfold texts; rw [List.filterMap_append]

theorem circles_append (a b : List Op) : circles (a ++ b) = circles a ++ circles b := by
  unfold circles; rw [List.filterMap_append]

theorem texts_flatMap {α : Type} (f : α → List Op) : ∀ l : List α, texts (l.flatMap f) = l.flatMap (fun a => texts (f a))
  | [] => rfl
  | a :: l => by rw [List.flatMap_cons, texts_append, texts_flatMap f l, List.flatMap_cons]

theorem circles_flatMap {α : Type} (f : α → List Op) : ∀ l : List α, circles (l.flatMap f) = l.flatMap (fun a => circles (f a))
  | [] => rfl
  | a :: l => by rw [List.flatMap_cons, circles_append, circles_flatMap f l, List.flatMap_cons]

theorem texts_place (ops : List Op) : texts (ops.map (Op.place ⟨o.xOffset, o.yOffset⟩ ⟨o.xScale, o.yScale⟩)) =
    (texts ops).map (fun x => (o.onCanvas x.1.x x.1.y, x.2)) := by
  unfold texts
  rw [List.filterMap_map, List.map_filterMap]
  congr 1
  funext op
  cases op <;> rfl

theorem circles_place (ops : List Op) : circles (ops.map (Op.place ⟨o.xOffset, o.yOffset⟩ ⟨o.xScale, o.yScale⟩)) =
    (circles ops).map (fun x => (o.onCanvas x.1.x x.1.y, x.2 * o.xScale)) := by
  unfold circles
  rw [List.filterMap_map, List.map_filterMap]
  congr 1
  funext op
  cases op <;> rfl

theorem stateOps_texts (levels i : Nat) (s : State) : texts (stateOps o levels i s) = [(⟨o.stateX i, o.stateY levels⟩, s.name)] := by
  rw [← circleCenter_eq]
  unfold stateOps
  cases s.accepting <;> cases s.initial <;> rfl

theorem stateOps_circles (levels i : Nat) (s : State) : circles (stateOps o levels i s) =
    (⟨o.stateX i, o.stateY levels⟩, o.circleRadius) :: if s.accepting then [(⟨o.stateX i, o.stateY levels⟩, o.acceptingCircleRadius)] else [] := by
  rw [← circleCenter_eq]
  unfold stateOps
  cases s.accepting <;> cases s.initial <;> rfl

theorem arrowOps_texts {levels : Nat} {p : PlacedArrow GroupedArrow} (h : p.level < levels) : texts (arrowOps o levels p) =
    [(⟨(o.leftEnd p.arrow + o.rightEnd p.arrow) / 2, o.levelY levels p.level - o.textMargin⟩, p.arrow.written)] := by
  rw [← levelY_eq h]
  unfold arrowOps
  cases o.middleArrow <;> cases o.endArrow <;> rfl

theorem arrowOps_circles (levels : Nat) (p : PlacedArrow GroupedArrow) : circles (arrowOps o levels p) = [] := by
  unfold arrowOps
  cases o.middleArrow <;> cases o.endArrow <;> rfl

theorem raw_texts {states : List State} {placed : List (PlacedArrow GroupedArrow)} {levels : Nat} (h : ∀ p ∈ placed, p.level < levels) :
    texts (rawOps o states placed levels) = states.zipIdx.map (fun x => (⟨o.stateX x.2, o.stateY levels⟩, x.1.name)) ++
      placed.map (fun p => (⟨(o.leftEnd p.arrow + o.rightEnd p.arrow) / 2, o.levelY levels p.level - o.textMargin⟩, p.arrow.written)) := by
  unfold rawOps
  simp only [texts_append, texts_flatMap, stateOps_texts]
  have : placed.flatMap (fun a => texts (arrowOps o levels a)) = placed.map (fun p => (⟨(o.leftEnd p.arrow + o.rightEnd p.arrow) / 2, o.levelY levels p.level - o.textMargin⟩, p.arrow.written)) := by
    rw [List.map_eq_flatMap]
    exact List.flatMap_congr (fun p hp => arrowOps_texts (h p hp))
  rw [this, ← List.map_eq_flatMap]
  have e1 : texts [Op.start] = [] := rfl
  have e2 : texts [Op.finish] = [] := rfl
  have e3 : texts (initOps o levels) = [] := rfl
  rw [e1, e2, e3]
  simp

theorem raw_circles {states : List State} {placed : List (PlacedArrow GroupedArrow)} {levels : Nat} :
    circles (rawOps o states placed levels) = states.zipIdx.flatMap (fun x =>
    (⟨o.stateX x.2, o.stateY levels⟩, o.circleRadius) ::
      if x.1.accepting then [(⟨o.stateX x.2, o.stateY levels⟩, o.acceptingCircleRadius)] else []) := by
  unfold rawOps
  simp only [circles_append, circles_flatMap, stateOps_circles, arrowOps_circles]
  have e1 : circles [Op.start] = [] := rfl
  have e2 : circles [Op.finish] = [] := rfl
  have e3 : circles (initOps o levels) = [] := rfl
  rw [e1, e2, e3]
  simp

theorem hasLine_place (hs : o.Sensible) (ops : List Op) (x y x' y' : Rat) :
    HasLine (ops.map (Op.place ⟨o.xOffset, o.yOffset⟩ ⟨o.xScale, o.yScale⟩)) (o.onCanvas x y) (o.onCanvas x' y') ↔
    HasLine ops ⟨x, y⟩ ⟨x', y'⟩ := by
  have hinj : ∀ (p : Pos2) (x y : Rat), o.onCanvas p.x p.y = o.onCanvas x y → p = ⟨x, y⟩ := by
    intro p x y h
    unfold Options.onCanvas at h
    injection h with h1 h2
    have h1 := mul_right_cancel₀ hs.scaleX h1
    have h2 := mul_right_cancel₀ hs.scaleY h2
    have h1 := add_right_cancel h1
    have h2 := add_right_cancel h2
    cases p
    dsimp only at h1 h2
    rw [h1, h2]
  constructor
  · rintro ⟨t, ht⟩
    obtain ⟨op, hop, he⟩ := List.mem_map.1 ht
    cases op <;> try cases he
    rename_i a b t'
    simp only [Op.place, place_eq, Op.line.injEq] at he
    obtain ⟨h1, h2, rfl⟩ := he
    exact ⟨t', by rw [← hinj _ _ _ h1, ← hinj _ _ _ h2]; exact hop⟩
  · rintro ⟨t, ht⟩
    exact ⟨t, List.mem_map.2 ⟨_, ht, rfl⟩⟩

theorem step_pos (hs : o.Sensible) : 0 < o.step := by
  have := hs.radius
  have := hs.padding
  unfold Options.step
  linarith

theorem stateX_le (hs : o.Sensible) {i j : Nat} (h : i ≤ j) : o.stateX i ≤ o.stateX j := by
  have := (step_pos hs).le
  have h' : (i : Rat) ≤ (j : Rat) := by exact_mod_cast h
  have := mul_le_mul_of_nonneg_left h' this
  unfold Options.stateX
  linarith

theorem stateX_lt (hs : o.Sensible) {i j : Nat} (h : i < j) : o.stateX i + o.step ≤ o.stateX j := by
  have := (step_pos hs).le
  have h' : (i : Rat) + 1 ≤ (j : Rat) := by exact_mod_cast h
  have := mul_le_mul_of_nonneg_left h' this
  unfold Options.stateX
  linarith

theorem stateX_inj (hs : o.Sensible) {i j : Nat} (h : o.stateX i = o.stateX j) : i = j := by
  have hp := step_pos hs
  rcases Nat.lt_trichotomy i j with hl | he | hl
  · have := stateX_lt hs hl; linarith
  · exact he
  · have := stateX_lt hs hl; linarith

theorem levelY_range (hs : o.Sensible) {levels level : Nat} (h : level < levels) : 0 < o.levelY levels level ∧ o.levelY levels level < o.baseY levels := by
  have hf := hs.floor
  have h1 : (level : Rat) < (levels : Rat) := by exact_mod_cast h
  have h0 : (0 : Rat) ≤ (level : Rat) := Nat.cast_nonneg level
  unfold Options.levelY Options.baseY
  constructor
  · exact mul_pos hf (by linarith)
  · rw [mul_comm o.floorHeight]
    exact mul_lt_mul_of_pos_right (by linarith) hf

theorem levelY_inj (hs : o.Sensible) {levels l l' : Nat} (h : o.levelY levels l = o.levelY levels l') : l = l' := by
  unfold Options.levelY at h
  have := mul_left_cancel₀ hs.floor.ne' h
  have : (l : Rat) = (l' : Rat) := by linarith
  exact_mod_cast this

theorem ends_before (hs : o.Sensible) {g g' : GroupedArrow} (h : g.Oriented) (h' : g'.Oriented)
    (hb : Before g.left g.right g'.left g'.right) : max (o.leftEnd g) (o.rightEnd g) ≤ min (o.leftEnd g') (o.rightEnd g') := by
  have hle := Oriented.le h
  have hle' := Oriented.le h'
  obtain ⟨hb1, hb2⟩ := hb
  have x1 := stateX_le hs hb1
  have x2 := stateX_le hs hle
  have x3 := stateX_le hs hle'
  have o1 := hs.fromOffset
  have o2 := hs.toOffset
  have o3 := hs.offsets
  have hg : g.left ≠ g.right → o.stateX g.left + o.step ≤ o.stateX g.right := fun hn => stateX_lt hs (by omega)
  have hg' : g'.left ≠ g'.right → o.stateX g'.left + o.step ≤ o.stateX g'.right := fun hn => stateX_lt hs (by omega)
  unfold Options.leftEnd Options.rightEnd
  rw [max_le_iff, le_min_iff, le_min_iff]
  by_cases hl : g.left = g.right
  · have x4 := stateX_lt hs (hb2 hl)
    rw [hl]
    refine ⟨⟨by linarith, by linarith⟩, by linarith, by linarith⟩
  · have x4 := hg hl
    refine ⟨⟨by linarith, by linarith⟩, by linarith, by linarith⟩

theorem mark_iff (hs : o.Sensible) {states : List State} {placed : List (PlacedArrow GroupedArrow)} {levels : Nat}
    (hp : ∀ p ∈ placed, p.level < levels) {i : Nat} {s : State} (hi : states[i]? = some s) :
    HasLine (rawOps o states placed levels) ⟨o.stateX i, o.stateY levels + (o.circleRadius + o.centerLinePadding)⟩
      ⟨o.stateX i, o.stateY levels + (o.circleRadius + o.centerLinePadding) + o.initArrowLength⟩ ↔ s.initial = true := by
  have hr := hs.radius
  have hpad := hs.padding
  have hm := hs.margin
  constructor
  · rintro ⟨t, ht⟩
    unfold rawOps at ht
    simp only [List.mem_append, List.mem_flatMap] at ht
    rcases ht with (((ht | ht) | ht) | ht) | ht
    · simp at ht
    · -- the arrow at the left
      exfalso
      unfold initOps at ht
      simp only [List.mem_cons, reduceCtorEq, Op.line.injEq, List.not_mem_nil, or_false, false_or, Pos2.mk.injEq, circleCenter_eq] at ht
      rcases ht with ⟨⟨_, h⟩, _⟩ | ⟨⟨_, h⟩, _⟩ | ⟨⟨_, h⟩, _⟩ <;> linarith
    · obtain ⟨x, hx, ht⟩ := ht
      obtain ⟨s', k⟩ := x
      rw [List.mem_zipIdx_iff_getElem?] at hx
      dsimp only at hx ht
      unfold stateOps at ht
      have hstart : ∀ (b : Pos2) (t' : Rat), Op.line ⟨o.stateX i, o.stateY levels + (o.circleRadius + o.centerLinePadding)⟩
          ⟨o.stateX i, o.stateY levels + (o.circleRadius + o.centerLinePadding) + o.initArrowLength⟩ t =
          Op.line (⟨xPos o k, circleCenter o levels⟩ + Pos2.ofY (o.circleRadius + o.centerLinePadding)) b t' → i = k := by
        intro b t' he
        injection he with h1 _ _
        injection h1 with h1 _
        refine stateX_inj hs ?_
        rw [h1, xPos_eq]
        exact add_zero _
      have hk : s'.initial = true ∧ i = k := by
        cases hin : s'.initial
        · exfalso
          cases hacc : s'.accepting <;> simp [hin, hacc] at ht
        · refine ⟨rfl, ?_⟩
          simp only [hin, ↓reduceIte, List.mem_append, List.mem_cons, reduceCtorEq, List.not_mem_nil, or_false, false_or] at ht
          rcases ht with ht | ht
          · cases hacc : s'.accepting <;> simp [hacc] at ht
          · rcases ht with ht | ht | ht <;> exact hstart _ _ ht
      obtain ⟨h1, rfl⟩ := hk
      rw [hi] at hx
      cases hx
      exact h1
    · -- arrows are above the states
      exfalso
      obtain ⟨p, hpp, ht⟩ := ht
      have hl := levelY_range hs (hp p hpp)
      unfold arrowOps at ht
      rw [levelY_eq (hp p hpp)] at ht
      have hy : o.stateY levels + (o.circleRadius + o.centerLinePadding) > o.baseY levels := by
        unfold Options.stateY
        linarith
      simp only [List.mem_append, List.mem_cons, reduceCtorEq, List.not_mem_nil, or_false, false_or, Op.line.injEq, Pos2.mk.injEq, lineBaseline_eq] at ht
      rcases ht with (ht | ht) | ht
      · rcases ht with ⟨⟨_, h⟩, _⟩ | ⟨⟨_, h⟩, _⟩ | ⟨⟨_, h⟩, _⟩ <;> linarith
      · cases hmid : o.middleArrow <;> simp only [hmid, Bool.false_eq_true, ↓reduceIte, List.mem_cons, List.not_mem_nil, or_false, Op.line.injEq, Pos2.mk.injEq] at ht
        rcases ht with ⟨⟨_, h⟩, _⟩ | ⟨⟨_, h⟩, _⟩ <;> linarith
      · cases hend : o.endArrow <;> simp only [hend, Bool.false_eq_true, ↓reduceIte, List.mem_cons, List.not_mem_nil, or_false, Op.line.injEq] at ht
        have hbase : ∀ q : Pos2, (⟨o.stateX i, o.stateY levels + (o.circleRadius + o.centerLinePadding)⟩ : Pos2) =
            (if p.arrow.direction = .right then ⟨xToPos o p.arrow.right, o.baseY levels⟩ else ⟨xFromPos o p.arrow.left, o.baseY levels⟩) → False := by
          intro _ he
          split at he <;> (injection he with _ h; linarith)
        rcases ht with ⟨h, _⟩ | ⟨h, _⟩ <;> exact hbase ⟨0, 0⟩ h
    · simp at ht
  · intro hin
    refine ⟨o.initArrowWidth, ?_⟩
    unfold rawOps
    refine List.mem_append_left _ (List.mem_append_left _ (List.mem_append_right _ (List.mem_flatMap.2 ⟨(s, i), ?_, ?_⟩)))
    · rw [List.mem_zipIdx_iff_getElem?]; exact hi
    · unfold stateOps
      rw [hin, ← circleCenter_eq]
      refine List.mem_append_left _ (List.mem_append_right _ (List.mem_cons_of_mem _ ?_))
      have e : ∀ (a b c : Rat), (⟨a, b⟩ : Pos2) + Pos2.ofY c = ⟨a, b + c⟩ := by
        intro a b c
        show (⟨a + 0, b + c⟩ : Pos2) = _
        rw [add_zero]
      rw [e, e, xPos_eq]
      exact List.mem_cons_self

theorem drawnOn (hs : o.Sensible) (states : List State) {gs : List GroupedArrow} {placed : List (PlacedArrow GroupedArrow)} {levels : Nat}
    (hg : ∀ g ∈ gs, g.Oriented) (hp : Placement GroupedArrow.left GroupedArrow.right gs placed levels) :
    DrawnOn o states placed levels ((rawOps o states placed levels).map (Op.place ⟨o.xOffset, o.yOffset⟩ ⟨o.xScale, o.yScale⟩)) := by
  have hm : ∀ p ∈ placed, p.arrow ∈ gs := fun p h => hp.each.mem_iff.1 (List.mem_map.2 ⟨p, h, rfl⟩)
  refine ⟨?_, ?_, ?_, ?_, ?_, ?_, ?_⟩
  · rw [texts_place, raw_texts hp.below]
    simp only [List.map_append, List.map_map]
    rfl
  · rw [circles_place, raw_circles, List.map_flatMap]
    congr 1
    funext x
    cases x.1.accepting <;> rfl
  · intro i s hi
    unfold Marked
    rw [hasLine_place hs]
    exact mark_iff hs hp.below hi
  · intro p hpp
    rw [hasLine_place hs, hasLine_place hs, hasLine_place hs]
    have hin : ∀ op, op ∈ arrowOps o levels p → op ∈ rawOps o states placed levels := by
      intro op h
      unfold rawOps
      exact List.mem_append_left _ (List.mem_append_right _ (List.mem_flatMap.2 ⟨p, hpp, h⟩))
    have hl := levelY_eq (o := o) (hp.below p hpp)
    refine ⟨⟨o.transLineWidth, hin _ ?_⟩, ⟨o.transLineWidth, hin _ ?_⟩, ⟨o.transLineWidth, hin _ ?_⟩⟩ <;>
    · unfold arrowOps
      simp only [← lineBaseline_eq, ← hl]
      simp [xFromPos, xToPos, xPos_eq, Options.leftEnd, Options.rightEnd]
  · intro p hpp hend
    rw [hasLine_place hs, hasLine_place hs]
    have hin : ∀ op, op ∈ arrowOps o levels p → op ∈ rawOps o states placed levels := by
      intro op h
      unfold rawOps
      exact List.mem_append_left _ (List.mem_append_right _ (List.mem_flatMap.2 ⟨p, hpp, h⟩))
    have hbase : (if p.arrow.direction = .right then (⟨xToPos o p.arrow.right, lineBaseline o levels⟩ : Pos2)
        else ⟨xFromPos o p.arrow.left, lineBaseline o levels⟩) = ⟨o.targetEnd p.arrow, lineBaseline o levels⟩ := by
      have ho := hg _ (hm p hpp)
      unfold GroupedArrow.Oriented at ho
      unfold Options.targetEnd GroupedArrow.source GroupedArrow.target
      cases hd : p.arrow.direction <;> rw [hd] at ho <;> dsimp only at ho <;> simp only [hd, reduceCtorEq, ↓reduceIte]
      · rw [if_neg (by omega)]; rfl
      · rw [if_pos (by omega)]; rfl
      · rw [if_neg (by omega)]; rfl
    refine ⟨⟨o.transLineWidth, hin _ ?_⟩, ⟨o.transLineWidth, hin _ ?_⟩⟩ <;>
    · unfold arrowOps
      dsimp only
      rw [hbase, hend, ← lineBaseline_eq]
      simp only [↓reduceIte]
      refine List.mem_append_left _ (List.mem_append_right _ ?_)
      first | exact List.mem_cons_self | exact List.mem_cons_of_mem _ List.mem_cons_self
  · refine hp.apart.imp_of_mem ?_
    intro p q hpm hqm h he
    exact ends_before hs (hg _ (hm p hpm)) (hg _ (hm q hqm)) (h (levelY_inj hs he))
  · intro p hpp
    exact levelY_range hs (hp.below p hpp)

end Draw
end Dandy
