import Verif.Spec.Backends
import Verif.Proofs.DrawCanvas
/-! # Proofs about the drawing backends -/

namespace Dandy
namespace Draw

variable {o : Options}

/-! ## Lines -/

theorem lines_append (a b : List Op) : lines (a ++ b) = lines a ++ lines b := by
  unfold lines; rw [List.filterMap_append]

theorem lines_flatMap {α : Type} (f : α → List Op) : ∀ l : List α, lines (l.flatMap f) = l.flatMap (fun a => lines (f a))
  | [] => rfl
  | a :: l => by rw [List.flatMap_cons, lines_append, lines_flatMap f l, List.flatMap_cons]

/-- Offset and scale on a line. -/
def Options.placeLine (o : Options) (x : Pos2 × Pos2 × Rat) : Pos2 × Pos2 × Rat :=
  (o.onCanvas x.1.x x.1.y, o.onCanvas x.2.1.x x.2.1.y, x.2.2)

theorem lines_place (ops : List Op) : lines (ops.map (Op.place ⟨o.xOffset, o.yOffset⟩ ⟨o.xScale, o.yScale⟩)) =
    (lines ops).map o.placeLine := by
  unfold lines
  rw [List.filterMap_map, List.map_filterMap]
  congr 1
  funext op
  cases op <;> rfl

theorem pos2_add (a b : Pos2) : a + b = ⟨a.x + b.x, a.y + b.y⟩ := rfl
theorem pos2_sub (a b : Pos2) : a - b = ⟨a.x - b.x, a.y - b.y⟩ := rfl

theorem initOps_lines (levels : Nat) : (lines (initOps o levels)).map o.placeLine = o.leftArrow levels := by
  unfold initOps lines Options.leftArrow Options.tip
  simp only [List.filterMap_cons, List.filterMap_nil, List.map_cons, List.map_nil, Options.placeLine, pos2_sub, circleCenter_eq]
  simp only [sub_eq_add_neg, neg_neg]

theorem stateOps_lines (levels i : Nat) (s : State) : (lines (stateOps o levels i s)).map o.placeLine =
    if s.initial then o.mark levels i else [] := by
  unfold stateOps Options.mark Options.tip
  cases s.accepting <;> cases s.initial <;>
    simp only [Bool.false_eq_true, if_false, if_true, lines, List.filterMap_append, List.filterMap_cons, List.filterMap_nil, List.map_cons,
      List.map_nil, List.append_nil, List.nil_append, Options.placeLine, pos2_add, circleCenter_eq, Pos2.ofY, xPos_eq, add_zero]

theorem arrowOps_lines {levels : Nat} {p : PlacedArrow GroupedArrow} (h : p.level < levels) (hor : p.arrow.Oriented) :
    (lines (arrowOps o levels p)).map o.placeLine = o.arrow levels p := by
  have hx : o.targetEnd p.arrow = if p.arrow.direction = .right then xToPos o p.arrow.right else xFromPos o p.arrow.left := by
    unfold Options.targetEnd GroupedArrow.source GroupedArrow.target
    unfold GroupedArrow.Oriented at hor
    cases hd : p.arrow.direction <;> rw [hd] at hor <;> simp only [reduceCtorEq, if_true, if_false] at hor ⊢
    · rw [if_neg (by omega)]; rfl
    · rw [if_pos (by omega)]; rfl
    · rw [if_neg (by omega)]; rfl
  have hside : p.arrow.side = if p.arrow.direction = .left then -1 else 1 := by
    unfold GroupedArrow.side GroupedArrow.source GroupedArrow.target
    unfold GroupedArrow.Oriented at hor
    cases hd : p.arrow.direction <;> rw [hd] at hor <;> simp only [reduceCtorEq, if_true, if_false] at hor ⊢
    · rw [if_pos (by omega)]
    · rw [if_neg (by omega)]
    · rw [if_neg (by omega)]
  have e1 : (xFromPos o p.arrow.left) = o.leftEnd p.arrow := rfl
  have e2 : (xToPos o p.arrow.right) = o.rightEnd p.arrow := rfl
  unfold Options.arrow Options.tip
  dsimp only
  rw [hx, hside, ← lineBaseline_eq, ← levelY_eq h, ← e1, ← e2]
  unfold arrowOps
  cases o.middleArrow <;> cases o.endArrow <;> cases p.arrow.direction <;>
    simp only [Bool.false_eq_true, reduceCtorEq, if_false, if_true, lines, List.filterMap_append, List.filterMap_cons, List.filterMap_nil, List.map_cons,
      List.map_nil, List.append_nil, List.nil_append, List.cons_append, List.map_append, Options.placeLine, pos2_sub, List.cons.injEq, Prod.mk.injEq, and_true, true_and] <;>
    and_intros <;> first | rfl | (congr 1 <;> ring)

theorem raw_lines {states : List State} {placed : List (PlacedArrow GroupedArrow)} {levels : Nat} (h : ∀ p ∈ placed, p.level < levels)
    (hor : ∀ p ∈ placed, p.arrow.Oriented) :
    lines ((rawOps o states placed levels).map (Op.place ⟨o.xOffset, o.yOffset⟩ ⟨o.xScale, o.yScale⟩)) =
      o.leftArrow levels ++ states.zipIdx.flatMap (fun x => if x.1.initial then o.mark levels x.2 else []) ++
        placed.flatMap (o.arrow levels) := by
  rw [lines_place]
  unfold rawOps
  simp only [lines_append, lines_flatMap, List.map_append, List.map_flatMap, initOps_lines, stateOps_lines]
  have : placed.flatMap (fun a => (lines (arrowOps o levels a)).map o.placeLine) = placed.flatMap (o.arrow levels) :=
    List.flatMap_congr (fun p hp => arrowOps_lines (h p hp) (hor p hp))
  rw [this]
  have e1 : lines [Op.start] = [] := rfl
  have e2 : lines [Op.finish] = [] := rfl
  rw [e1, e2]
  simp

/-! ## Colours -/

/-- The colour in force after the calls. -/
def lastColor (c : Color) : List Op → Color
  | [] => c
  | .color c' :: ops => lastColor c' ops
  | _ :: ops => lastColor c ops

theorem lastColor_append : ∀ (a b : List Op) (c : Color), lastColor c (a ++ b) = lastColor (lastColor c a) b
  | [], _, _ => rfl
  | op :: a, b, c => by cases op <;> exact lastColor_append a b _

theorem items_append : ∀ (a b : List Op) (c : Color), items c (a ++ b) = items c a ++ items (lastColor c a) b
  | [], _, _ => rfl
  | op :: a, b, c => by
    cases op <;> simp only [List.cons_append, items, lastColor, items_append a b]

/-- Everything has its colour, whatever the colour was before. -/
def Good (o : Options) (ops : List Op) : Prop := ∀ c, ∀ it ∈ items c ops, it.Coloured o

theorem Good.append {a b : List Op} (ha : Good o a) (hb : Good o b) : Good o (a ++ b) := by
  intro c it h
  rw [items_append, List.mem_append] at h
  rcases h with h | h
  · exact ha _ _ h
  · exact hb _ _ h

theorem Good.flatMap {α : Type} {f : α → List Op} : ∀ {l : List α}, (∀ a ∈ l, Good o (f a)) → Good o (l.flatMap f)
  | [], _ => fun c it h => by cases h
  | a :: l, h => by
    rw [List.flatMap_cons]
    exact (h a List.mem_cons_self).append (Good.flatMap fun x hx => h x (List.mem_cons_of_mem _ hx))

variable (o) in
/-- Offset and scale. -/
abbrev Options.placeOp : Op → Op := Op.place ⟨o.xOffset, o.yOffset⟩ ⟨o.xScale, o.yScale⟩

theorem init_good (levels : Nat) : Good o ((initOps o levels).map o.placeOp) := by
  intro c it h
  simp only [initOps, List.map_cons, List.map_nil, Op.place, items, List.mem_cons, List.not_mem_nil, or_false] at h
  rcases h with rfl | rfl | rfl <;> rfl

theorem state_good (levels i : Nat) (s : State) : Good o ((stateOps o levels i s).map o.placeOp) := by
  intro c it h
  unfold stateOps at h
  cases ha : s.accepting <;> cases hi : s.initial <;> rw [ha, hi] at h <;>
    simp only [Bool.false_eq_true, if_false, if_true, List.append_nil, List.cons_append, List.nil_append, List.map_cons, List.map_nil, Op.place, items,
      List.mem_cons, List.not_mem_nil, or_false] at h
  · rcases h with rfl | rfl <;> rfl
  · rcases h with rfl | rfl | rfl | rfl | rfl <;> rfl
  · rcases h with rfl | rfl | rfl <;> rfl
  · rcases h with rfl | rfl | rfl | rfl | rfl | rfl <;> rfl

theorem arrow_good (levels : Nat) (p : PlacedArrow GroupedArrow) : Good o ((arrowOps o levels p).map o.placeOp) := by
  intro c it h
  unfold arrowOps at h
  cases hm : o.middleArrow <;> cases he : o.endArrow <;> rw [hm, he] at h <;>
    simp only [Bool.false_eq_true, if_false, if_true, List.append_nil, List.cons_append, List.nil_append, List.map_cons, List.map_nil, Op.place, items,
      List.mem_cons, List.not_mem_nil, or_false] at h
  · rcases h with rfl | rfl | rfl | rfl <;> rfl
  · rcases h with rfl | rfl | rfl | rfl | rfl | rfl <;> rfl
  · rcases h with rfl | rfl | rfl | rfl | rfl | rfl <;> rfl
  · rcases h with rfl | rfl | rfl | rfl | rfl | rfl | rfl | rfl <;> rfl

/-- The calls between the first and the last one. -/
def innerOps (o : Options) (states : List State) (placed : List (PlacedArrow GroupedArrow)) (levels : Nat) : List Op :=
  (initOps o levels).map o.placeOp ++ (states.zipIdx.flatMap (fun x => (stateOps o levels x.2 x.1).map o.placeOp) ++
    placed.flatMap (fun p => (arrowOps o levels p).map o.placeOp))

theorem placed_raw (states : List State) (placed : List (PlacedArrow GroupedArrow)) (levels : Nat) :
    (rawOps o states placed levels).map o.placeOp = Op.start :: (innerOps o states placed levels ++ [Op.finish]) := by
  unfold rawOps innerOps
  simp only [List.map_append, List.map_flatMap, List.append_assoc, List.map_cons, List.map_nil, Op.place, List.cons_append, List.nil_append]

theorem raw_good (states : List State) (placed : List (PlacedArrow GroupedArrow)) (levels : Nat) :
    Good o ((rawOps o states placed levels).map o.placeOp) := by
  rw [placed_raw]
  have h1 : Good o [Op.start] := fun c it h => by cases h
  have h2 : Good o [Op.finish] := fun c it h => by cases h
  refine h1.append (((init_good levels).append (.append (.flatMap fun x _ => state_good levels x.2 x.1) (.flatMap fun p _ => arrow_good levels p))).append h2)

theorem lastColor_flatMap {α : Type} {f : α → List Op} {k : Color} : ∀ {l : List α}, l ≠ [] → (∀ a ∈ l, ∀ c, lastColor c (f a) = k) →
    ∀ c, lastColor c (l.flatMap f) = k
  | [], h, _, _ => absurd rfl h
  | [a], _, h, c => by simpa using h a List.mem_cons_self c
  | a :: b :: l, _, h, c => by
    rw [List.flatMap_cons, lastColor_append]
    exact lastColor_flatMap (by simp) (fun x hx => h x (List.mem_cons_of_mem _ hx)) _

theorem state_lastColor (levels i : Nat) (s : State) (c : Color) : lastColor c ((stateOps o levels i s).map o.placeOp) = o.textColor := by
  unfold stateOps
  cases s.accepting <;> cases s.initial <;> rfl

theorem arrow_lastColor (levels : Nat) (p : PlacedArrow GroupedArrow) (c : Color) :
    lastColor c ((arrowOps o levels p).map o.placeOp) = o.textColor := by
  unfold arrowOps
  cases o.middleArrow <;> cases o.endArrow <;> rfl

theorem inner_lastColor {states : List State} (hs : states ≠ []) (placed : List (PlacedArrow GroupedArrow)) (levels : Nat) (c : Color) :
    lastColor c (innerOps o states placed levels) = o.textColor := by
  have h1 : ∀ c, lastColor c (states.zipIdx.flatMap (fun x => (stateOps o levels x.2 x.1).map o.placeOp)) = o.textColor :=
    lastColor_flatMap (by simpa using hs) (fun x _ c => state_lastColor _ _ _ c)
  unfold innerOps
  rw [lastColor_append, lastColor_append]
  by_cases hp : placed = []
  · subst hp; exact h1 _
  · exact lastColor_flatMap hp (fun p _ c => arrow_lastColor _ _ c) _

/-! ## egui -/

theorem egui_run : ∀ (ops : List Op) (e : Egui.Drawer), ∃ ss, (Egui.run e ops).shapes = e.shapes ++ ss ∧
    List.Forall₂ Egui.Visible ss (items e.color ops)
  | [], e => ⟨[], by simp [Egui.run], .nil⟩
  | op :: ops, e => by
    have hr : Egui.run e (op :: ops) = Egui.run (Egui.exec e op) ops := rfl
    obtain ⟨ss, h1, h2⟩ := egui_run ops (Egui.exec e op)
    rw [hr, h1]
    cases op with
    | start => exact ⟨ss, rfl, h2⟩
    | finish => exact ⟨ss, rfl, h2⟩
    | color c => exact ⟨ss, rfl, h2⟩
    | circle p r w => exact ⟨_ :: ss, by rw [Egui.exec, List.append_assoc]; rfl, .cons .circle h2⟩
    | line a b w => exact ⟨_ :: ss, by rw [Egui.exec, List.append_assoc]; rfl, .cons .line h2⟩
    | text p s => exact ⟨_ :: ss, by rw [Egui.exec, List.append_assoc]; rfl, .cons .text h2⟩

/-! ## Canvas -/

/-- A canvas can do this. -/
def Op.Possible : Op → Prop
  | .circle _ r w => 0 ≤ r ∧ 0 < w
  | .line _ _ w => 0 < w
  | .start => False
  | .finish => False
  | _ => True

/-- The last line or circle. -/
def lastOutline (l : List Item) : Option Item := (l.filter Item.isOutline).getLast?

/-! ## Colours as texts -/

private theorem number_read (n : Fin 256) {c : Char} (hc : c.isDigit = false) (t : Str) : Canvas.Css.number (numStr n ++ c :: t) = some (n, c :: t) := by
  have hd : ∀ x ∈ numStr n.1, x.isDigit = true := fun x hx => Nat.isDigit_of_mem_toDigits (by omega) (by omega) hx
  unfold Canvas.Css.number
  have e1 : (numStr n.1 ++ c :: t).takeWhile Char.isDigit = numStr n.1 := by
    rw [List.takeWhile_append_of_pos hd, List.takeWhile_cons_of_neg (by simp [hc]), List.append_nil]
  have e2 : (numStr n.1 ++ c :: t).dropWhile Char.isDigit = c :: t := by
    rw [List.dropWhile_append_of_pos hd, List.dropWhile_cons_of_neg (by simp [hc])]
  rw [e1, e2]
  cases h : numStr n.1 with
  | nil => exact absurd h Nat.toDigits_ne_nil
  | cons a l =>
    dsimp only
    rw [← h]
    unfold numStr
    rw [Nat.ofDigitChars_toDigits (by omega) (by omega)]
    congr 2
    ext
    simp only [Fin.ofNat]
    omega

/-- The text for a colour is read as that colour. -/
theorem css_rgbText (k : Color) : Canvas.Css.color (Canvas.rgbText k) = some k := by
  obtain ⟨r, g, b⟩ := k
  have hb : ∀ (n : Nat) (t : Str), Canvas.Css.blanks (' ' :: (numStr n ++ t)) = some (numStr n ++ t) := by
    intro n t
    unfold Canvas.Css.blanks
    cases h : numStr n with
    | nil => exact absurd h Nat.toDigits_ne_nil
    | cons a l =>
      have ha : a ≠ ' ' := by
        rintro rfl
        have := Nat.isDigit_of_mem_toDigits (b := 10) (n := n) (c := ' ') (by omega) (by omega) (by unfold numStr at h; rw [h]; exact List.mem_cons_self)
        exact absurd this (by decide)
      change some (List.dropWhile (· == ' ') (a :: (l ++ t))) = _
      rw [List.dropWhile_cons_of_neg (by simpa using ha)]
      rfl
  unfold Canvas.rgbText Canvas.Css.color
  simp only [List.cons_append, List.nil_append, List.append_assoc]
  simp only [number_read r (c := ' ') (by decide), number_read g (c := ' ') (by decide), number_read b (c := ')') (by decide), hb, Option.bind_eq_bind,
    Option.bind_some]
  simp

theorem exec_color (c : Canvas.Context) (k : Color) : Canvas.exec c (.color k) = some { c with strokeStyle := k, fillStyle := k } := by
  simp only [Canvas.exec, Canvas.Context.setStrokeStyle, Canvas.Context.setFillStyle, css_rgbText]

/-- The current path is that of `prev`. -/
def PathOf (c : Canvas.Context) : Option Item → Prop
  | none => True
  | some it => ∀ k, Canvas.Visible (.stroke c.path c.lineWidth k) (it.recolor k)

/-- The state of the context during a drawing. -/
structure Ready (c : Canvas.Context) (k : Color) : Prop where
  align : c.textAlign = c!"center"
  baseline : c.textBaseline = c!"middle"
  stroke : c.strokeStyle = k
  fill : c.fillStyle = k

theorem lastOutline_cons (it : Item) (l : List Item) :
    lastOutline (it :: l) = (lastOutline l).or (if it.isOutline then some it else none) := by
  unfold lastOutline
  rw [List.filter_cons]
  split
  · rw [List.getLast?_cons]
    cases (l.filter Item.isOutline).getLast? <;> rfl
  · simp

theorem canvas_exec {c : Canvas.Context} {k : Color} (hc : Ready c k) (prev : Option Item) (hp : PathOf c prev) {op : Op} (ho : op.Possible) :
    ∃ c' ps, Canvas.exec c op = some c' ∧ Ready c' (lastColor k [op]) ∧ c'.painted = c.painted ++ ps ∧
      List.Forall₂ Canvas.Visible ps (items k [op]) ∧ PathOf c' ((lastOutline (items k [op])).or prev) := by
  obtain ⟨h1, h2, h3, h4⟩ := hc
  cases op with
  | start => exact ho.elim
  | finish => exact ho.elim
  | color rgb => exact ⟨_, [], exec_color c rgb, ⟨h1, h2, rfl, rfl⟩, by simp, .nil, hp⟩
  | text p s =>
    refine ⟨_, [.text p s c.fillStyle c.textAlign c.textBaseline], rfl, ⟨h1, h2, h3, h4⟩, rfl, ?_, hp⟩
    rw [h1, h2, h4]
    exact .cons .text .nil
  | circle p r w =>
    obtain ⟨hr, hw⟩ := ho
    refine ⟨{ c with lineWidth := w, path := [.arc p r, .close], painted := c.painted ++ [.stroke [.arc p r] w c.strokeStyle] },
      [.stroke [.arc p r] w c.strokeStyle], ?_, ⟨h1, h2, h3, h4⟩, rfl, ?_, ?_⟩
    · simp [Canvas.exec, Canvas.Context.setLineWidth, Canvas.Context.arc, Canvas.Context.beginPath, Canvas.Context.stroke,
        Canvas.Context.closePath, hw, not_lt.2 hr]
    · rw [h3]; exact .cons .circle .nil
    · intro k'; exact .closedCircle
  | line a b w =>
    have hw : 0 < w := ho
    refine ⟨{ c with lineWidth := w, path := [.moveTo a, .lineTo b, .close], painted := c.painted ++ [.stroke [.moveTo a, .lineTo b] w c.strokeStyle] },
      [.stroke [.moveTo a, .lineTo b] w c.strokeStyle], ?_, ⟨h1, h2, h3, h4⟩, rfl, ?_, ?_⟩
    · simp [Canvas.exec, Canvas.Context.setLineWidth, Canvas.Context.moveTo, Canvas.Context.lineTo, Canvas.Context.beginPath, Canvas.Context.stroke,
        Canvas.Context.closePath, hw]
    · rw [h3]; exact .cons .line .nil
    · intro k'; exact .closedLine

theorem canvas_run : ∀ (ops : List Op) (c : Canvas.Context) (k : Color), Ready c k → ∀ prev, PathOf c prev → (∀ op ∈ ops, op.Possible) →
    ∃ c' ps, Canvas.run c ops = some c' ∧ Ready c' (lastColor k ops) ∧ c'.painted = c.painted ++ ps ∧
      List.Forall₂ Canvas.Visible ps (items k ops) ∧ PathOf c' ((lastOutline (items k ops)).or prev)
  | [], c, k, hc, prev, hp, _ => ⟨c, [], rfl, hc, by simp, .nil, hp⟩
  | op :: ops, c, k, hc, prev, hp, ho => by
    obtain ⟨c1, ps1, a1, a2, a3, a4, a5⟩ := canvas_exec hc prev hp (ho op List.mem_cons_self)
    obtain ⟨c2, ps2, b1, b2, b3, b4, b5⟩ := canvas_run ops c1 _ a2 _ a5 (fun x hx => ho x (List.mem_cons_of_mem _ hx))
    have e : items k (op :: ops) = items k [op] ++ items (lastColor k [op]) ops := items_append [op] ops k
    refine ⟨c2, ps1 ++ ps2, ?_, ?_, ?_, ?_, ?_⟩
    · unfold Canvas.run at b1 ⊢
      rw [List.foldlM_cons, a1]
      exact b1
    · have := lastColor_append [op] ops k
      rw [List.singleton_append] at this
      rw [this]; exact b2
    · rw [b3, a3, List.append_assoc]
    · rw [e]; exact List.rel_append a4 b4
    · rw [e]
      have : lastOutline (items k [op] ++ items (lastColor k [op]) ops) =
          (lastOutline (items (lastColor k [op]) ops)).or (lastOutline (items k [op])) := by
        unfold lastOutline
        rw [List.filter_append, List.getLast?_append]
      rw [this, Option.or_assoc]
      exact b5

theorem inner_possible (hd : o.Drawable) (states : List State) (placed : List (PlacedArrow GroupedArrow)) (levels : Nat) :
    ∀ op ∈ innerOps o states placed levels, op.Possible := by
  have hw1 := hd.circleWidth
  have hw2 := hd.acceptingCircleWidth
  have hw3 := hd.initArrowWidth
  have hw4 := hd.transLineWidth
  have hr1 := hd.radius
  have hr2 := hd.acceptingRadius
  have h1 : ∀ op ∈ (initOps o levels).map o.placeOp, op.Possible := by
    simp only [initOps, List.map_cons, List.map_nil, Op.place, List.forall_mem_cons, Op.Possible, List.not_mem_nil, false_imp_iff, implies_true,
      and_true, true_and]
    exact ⟨hw3, hw3, hw3⟩
  have h2 : ∀ (i : Nat) (s : State), ∀ op ∈ (stateOps o levels i s).map o.placeOp, op.Possible := by
    intro i s
    unfold stateOps
    cases s.accepting <;> cases s.initial <;>
      simp only [Bool.false_eq_true, if_false, if_true, List.append_nil, List.cons_append, List.nil_append, List.map_cons, List.map_nil, Op.place,
        List.forall_mem_cons, Op.Possible, List.not_mem_nil, false_imp_iff, implies_true, and_true, true_and] <;>
      and_intros <;> assumption
  have h3 : ∀ (p : PlacedArrow GroupedArrow), ∀ op ∈ (arrowOps o levels p).map o.placeOp, op.Possible := by
    intro p
    unfold arrowOps
    cases o.middleArrow <;> cases o.endArrow <;>
      simp only [Bool.false_eq_true, if_false, if_true, List.append_nil, List.cons_append, List.nil_append, List.map_cons, List.map_nil, Op.place,
        List.forall_mem_cons, Op.Possible, List.not_mem_nil, false_imp_iff, implies_true, and_true, true_and] <;>
      and_intros <;> assumption
  intro op hop
  simp only [innerOps, List.mem_append, List.mem_flatMap] at hop
  rcases hop with h | ⟨x, _, h⟩ | ⟨p, _, h⟩
  · exact h1 _ h
  · exact h2 _ _ _ h
  · exact h3 _ _ h

theorem visible_path {path : List Canvas.Cmd} {w : Rat} {k : Color} {it : Item} (h : Canvas.Visible (.stroke path w k) it) : path ≠ [] := by
  cases h <;> simp

/-- A whole drawing on a canvas. -/
theorem canvas_draw (hd : o.Drawable) {states : List State} (hs : states ≠ []) (placed : List (PlacedArrow GroupedArrow)) (levels : Nat)
    (c : Canvas.Context) (k : Color) :
    ∃ c' ps again it, Canvas.run (Canvas.new c) ((rawOps o states placed levels).map o.placeOp) = some c' ∧
      c'.painted = c.painted ++ ps ++ [again] ∧
      List.Forall₂ Canvas.Visible ps (items k ((rawOps o states placed levels).map o.placeOp)) ∧
      lastOutline (items k ((rawOps o states placed levels).map o.placeOp)) = some it ∧
      Canvas.Visible again (it.recolor o.textColor) := by
  rw [placed_raw]
  have hpos := inner_possible hd states placed levels
  have hlast := fun k => inner_lastColor (o := o) hs placed levels k
  obtain ⟨rest, hrest⟩ : ∃ rest, innerOps o states placed levels = .color o.lineColor :: rest := ⟨_, rfl⟩
  have hit : ∃ it, lastOutline (items o.lineColor rest) = some it := by
    have hsome : ∃ a b w r, rest = Op.line a b w :: r := by
      unfold innerOps initOps at hrest
      simp only [List.map_cons, Op.place, List.cons_append, List.cons.injEq, true_and] at hrest
      exact ⟨_, _, _, _, hrest.symm⟩
    obtain ⟨a, b, w, r, rfl⟩ := hsome
    rw [items, lastOutline_cons]
    cases lastOutline (items o.lineColor r) with
    | none => exact ⟨_, rfl⟩
    | some it => exact ⟨_, rfl⟩
  obtain ⟨it, hit⟩ := hit
  rw [hrest] at hpos hlast ⊢
  have hitems : items k (Op.start :: (.color o.lineColor :: rest ++ [Op.finish])) = items o.lineColor rest := by
    rw [items, List.cons_append, items, items_append]
    exact List.append_nil _
  rw [hitems]
  let c1 : Canvas.Context := { (Canvas.new c).beginPath with strokeStyle := o.lineColor, fillStyle := o.lineColor }
  obtain ⟨c2, ps, h1, h2, h3, h4, h5⟩ := canvas_run rest c1 o.lineColor ⟨rfl, rfl, rfl, rfl⟩ none trivial
    (fun op hop => hpos op (List.mem_cons_of_mem _ hop))
  rw [hit] at h5
  have h6 := h5 o.textColor
  refine ⟨c2.stroke, ps, .stroke c2.path c2.lineWidth c2.strokeStyle, it, ?_, ?_, h4, hit, ?_⟩
  · have e : Canvas.run (Canvas.new c) (Op.start :: (.color o.lineColor :: rest ++ [Op.finish])) = Canvas.run c1 (rest ++ [Op.finish]) := by
      change ((some (Canvas.new c).beginPath).bind fun x => (Canvas.exec x (.color o.lineColor)).bind fun x => Canvas.run x (rest ++ [Op.finish])) = _
      rw [Option.bind_some, exec_color, Option.bind_some]
    rw [e]
    unfold Canvas.run at h1 ⊢
    rw [List.foldlM_append, h1]
    rfl
  · rw [Canvas.Context.stroke, if_neg (visible_path h6)]
    show c2.painted ++ _ = _
    rw [h3]
    rfl
  · rw [h2.stroke, show lastColor o.lineColor rest = o.textColor from hlast o.textColor]
    exact h6

/-- A drawing on a canvas panics exactly if there is a circle with a negative radius. -/
theorem canvas_none : ∀ (ops : List Op) (c : Canvas.Context), Canvas.run c ops = none ↔ ∃ x ∈ circles ops, x.2 < 0
  | [], c => by simp [Canvas.run, circles]
  | op :: ops, c => by
    have hr : Canvas.run c (op :: ops) = (Canvas.exec c op).bind (fun c => Canvas.run c ops) := by
      unfold Canvas.run
      rw [List.foldlM_cons]
      rfl
    rw [hr]
    cases op with
    | circle p r w =>
      have e : circles (Op.circle p r w :: ops) = (p, r) :: circles ops := rfl
      rw [e, List.exists_mem_cons_iff]
      by_cases hneg : r < 0
      · simp [Canvas.exec, Canvas.Context.arc, hneg]
      · simp only [Canvas.exec, Canvas.Context.arc, hneg, if_false, Option.bind_eq_bind, Option.bind_some, Option.pure_def, false_or]
        exact canvas_none ops _
    | _ => exact canvas_none ops _

end Draw
end Dandy
