import Verif.Proofs.DrawSize
import Verif.Props.Draw
/-!
# What the options of a drawing do, and the distance of lines and circles

Properties C119, C120.
-/

namespace Dandy

open Draw

/-! ## C119 -/

private theorem draw_map (o o' : Options) (f : Op → Op) (ord : List GroupedArrow → List GroupedArrow) (states : List Draw.State) (arrows : List Arrow)
    (h : ∀ placed levels, (rawOps o' states placed levels).map (Op.place ⟨o'.xOffset, o'.yOffset⟩ ⟨o'.xScale, o'.yScale⟩) =
      ((rawOps o states placed levels).map (Op.place ⟨o.xOffset, o.yOffset⟩ ⟨o.xScale, o.yScale⟩)).map f) :
    draw o' ord states arrows = (draw o ord states arrows).map (List.map f) := by
  unfold draw
  cases e : layout ord arrows with
  | none => rfl
  | some x => exact congrArg some (h x.1 x.2)

private theorem draw_moved (o : Options) (v : Pos2) (ord : List GroupedArrow → List GroupedArrow) (states : List Draw.State) (arrows : List Arrow) :
    draw { o with xOffset := o.xOffset + v.x, yOffset := o.yOffset + v.y } ord states arrows =
      (draw o ord states arrows).map (List.map (Op.shifted ⟨v.x * o.xScale, v.y * o.yScale⟩)) := by
  refine draw_map o _ _ ord states arrows (fun placed levels => ?_)
  rw [List.map_map]
  refine List.map_congr_left (fun op _ => ?_)
  exact place_shifted ⟨o.xOffset, o.yOffset⟩ ⟨o.xScale, o.yScale⟩ v op

private theorem draw_scaled (o : Options) (k : Rat) (ord : List GroupedArrow → List GroupedArrow) (states : List Draw.State) (arrows : List Arrow) :
    draw { o with xScale := k * o.xScale, yScale := k * o.yScale } ord states arrows = (draw o ord states arrows).map (List.map (Op.grown k)) := by
  refine draw_map o _ _ ord states arrows (fun placed levels => ?_)
  rw [List.map_map]
  refine List.map_congr_left (fun op _ => ?_)
  exact place_grown ⟨o.xOffset, o.yOffset⟩ ⟨o.xScale, o.yScale⟩ k op

private theorem draw_grown (o : Options) (k : Rat) (ord : List GroupedArrow → List GroupedArrow) (states : List Draw.State) (arrows : List Arrow) :
    draw (o.grown k) ord states arrows = (draw o ord states arrows).map (List.map (Op.grown k)) := by
  refine draw_map o _ _ ord states arrows (fun placed levels => ?_)
  rw [raw_grown, List.map_map, List.map_map]
  refine List.map_congr_left (fun op _ => ?_)
  exact grown_place ⟨o.xOffset, o.yOffset⟩ ⟨o.xScale, o.yScale⟩ k op

/-- **C119** Another offset moves the drawing of a DFA as a whole, by the difference times the scale. -/
theorem C119_dfa_moved (o : Options) (v : Pos2) (ord : List GroupedArrow → List GroupedArrow) (d : Dfa) :
    drawDfa { o with xOffset := o.xOffset + v.x, yOffset := o.yOffset + v.y } ord d =
      (drawDfa o ord d).map (List.map (Op.shifted ⟨v.x * o.xScale, v.y * o.yScale⟩)) := by
  unfold drawDfa
  cases e : dfaToArrows d with
  | none => rfl
  | some as => exact draw_moved o v ord _ as

/-- **C119** The same for NFAs. -/
theorem C119_nfa_moved (o : Options) (v : Pos2) (ord : List GroupedArrow → List GroupedArrow) (n : Nfa) :
    drawNfa { o with xOffset := o.xOffset + v.x, yOffset := o.yOffset + v.y } ord n =
      (drawNfa o ord n).map (List.map (Op.shifted ⟨v.x * o.xScale, v.y * o.yScale⟩)) := by
  unfold drawNfa
  cases e : nfaToArrows n with
  | none => rfl
  | some as => exact draw_moved o v ord _ as

/-- **C119** Both scales `k` times as large, or all lengths and the offset `k` times as large: the same drawing, namely the former one `k` times
as large. There is no length in the drawing of a DFA besides those in the options. -/
theorem C119_dfa_scaled (o : Options) (k : Rat) (ord : List GroupedArrow → List GroupedArrow) (d : Dfa) :
    drawDfa { o with xScale := k * o.xScale, yScale := k * o.yScale } ord d = (drawDfa o ord d).map (List.map (Op.grown k)) ∧
    drawDfa (o.grown k) ord d = (drawDfa o ord d).map (List.map (Op.grown k)) := by
  unfold drawDfa
  cases e : dfaToArrows d with
  | none => exact ⟨rfl, rfl⟩
  | some as => exact ⟨draw_scaled o k ord _ as, draw_grown o k ord _ as⟩

/-- **C119** The same for NFAs. -/
theorem C119_nfa_scaled (o : Options) (k : Rat) (ord : List GroupedArrow → List GroupedArrow) (n : Nfa) :
    drawNfa { o with xScale := k * o.xScale, yScale := k * o.yScale } ord n = (drawNfa o ord n).map (List.map (Op.grown k)) ∧
    drawNfa (o.grown k) ord n = (drawNfa o ord n).map (List.map (Op.grown k)) := by
  unfold drawNfa
  cases e : nfaToArrows n with
  | none => exact ⟨rfl, rfl⟩
  | some as => exact ⟨draw_scaled o k ord _ as, draw_grown o k ord _ as⟩

private theorem draw_styled (a b c d : Rat) (e f g : Color) (o : Options) (ord : List GroupedArrow → List GroupedArrow)
    (states : List Draw.State) (arrows : List Arrow) :
    (draw (o.styled a b c d e f g) ord states arrows).map (List.map Op.bare) = (draw o ord states arrows).map (List.map Op.bare) := by
  unfold draw
  cases h : layout ord arrows with
  | none => rfl
  | some x =>
    have key : ∀ o' : Options, ((rawOps o' states x.1 x.2).map (Op.place ⟨o.xOffset, o.yOffset⟩ ⟨o.xScale, o.yScale⟩)).map Op.bare =
        ((rawOps o' states x.1 x.2).map Op.bare).map (Op.place ⟨o.xOffset, o.yOffset⟩ ⟨o.xScale, o.yScale⟩) := by
      intro o'
      rw [List.map_map, List.map_map]
      exact List.map_congr_left (fun op _ => bare_place _ _ op)
    refine congrArg some ?_
    refine (key _).trans (Eq.trans ?_ (key o).symm)
    rw [raw_styled]

/-- **C119** Widths of lines and colours have no influence on what is drawn where. -/
theorem C119_dfa_styled (a b c d : Rat) (e f g : Color) (o : Options) (ord : List GroupedArrow → List GroupedArrow) (m : Dfa) :
    (drawDfa (o.styled a b c d e f g) ord m).map (List.map Op.bare) = (drawDfa o ord m).map (List.map Op.bare) := by
  unfold drawDfa
  cases h : dfaToArrows m with
  | none => rfl
  | some as => exact draw_styled a b c d e f g o ord _ as

/-- **C119** The same for NFAs. -/
theorem C119_nfa_styled (a b c d : Rat) (e f g : Color) (o : Options) (ord : List GroupedArrow → List GroupedArrow) (n : Nfa) :
    (drawNfa (o.styled a b c d e f g) ord n).map (List.map Op.bare) = (drawNfa o ord n).map (List.map Op.bare) := by
  unfold drawNfa
  cases h : nfaToArrows n with
  | none => rfl
  | some as => exact draw_styled a b c d e f g o ord _ as

private theorem draw_tips (m e : Bool) (o : Options) (ord : List GroupedArrow → List GroupedArrow) {states : List Draw.State} {arrows : List Arrow}
    {ops ops' : List Op} (h : draw o ord states arrows = some ops)
    (h' : draw { o with middleArrow := m && o.middleArrow, endArrow := e && o.endArrow } ord states arrows = some ops') :
    ops'.Sublist ops ∧ ops'.filter (fun op => !op.isLine) = ops.filter (fun op => !op.isLine) := by
  unfold draw at h h'
  cases hl : layout ord arrows with
  | none => rw [hl] at h; cases h
  | some x =>
    rw [hl] at h h'
    cases h
    cases h'
    obtain ⟨h1, h2⟩ := raw_tips m e o states x.1 x.2
    refine ⟨h1.map _, ?_⟩
    have key : ∀ l : List Op, (l.map (Op.place ⟨o.xOffset, o.yOffset⟩ ⟨o.xScale, o.yScale⟩)).filter (fun op => !op.isLine) =
        (l.filter (fun op => !op.isLine)).map (Op.place ⟨o.xOffset, o.yOffset⟩ ⟨o.xScale, o.yScale⟩) := by
      intro l
      rw [List.filter_map]
      congr 1
      refine List.filter_congr (fun op _ => ?_)
      simp only [Function.comp_apply, isLine_place]
    exact (key _).trans ((congrArg _ h2).trans (key _).symm)

/-- **C119** Switching off the tips of arrows (in the middle, at the end or both) only leaves out some lines. -/
theorem C119_dfa_tips (m e : Bool) (o : Options) (ord : List GroupedArrow → List GroupedArrow) (d : Dfa) (ops ops' : List Op)
    (h : drawDfa o ord d = some ops) (h' : drawDfa { o with middleArrow := m && o.middleArrow, endArrow := e && o.endArrow } ord d = some ops') :
    ops'.Sublist ops ∧ ops'.filter (fun op => !op.isLine) = ops.filter (fun op => !op.isLine) := by
  unfold drawDfa at h h'
  cases ha : dfaToArrows d with
  | none => rw [ha] at h; cases h
  | some as =>
    rw [ha] at h h'
    exact draw_tips m e o ord h h'

/-- **C119** The same for NFAs. -/
theorem C119_nfa_tips (m e : Bool) (o : Options) (ord : List GroupedArrow → List GroupedArrow) (n : Nfa) (ops ops' : List Op)
    (h : drawNfa o ord n = some ops) (h' : drawNfa { o with middleArrow := m && o.middleArrow, endArrow := e && o.endArrow } ord n = some ops') :
    ops'.Sublist ops ∧ ops'.filter (fun op => !op.isLine) = ops.filter (fun op => !op.isLine) := by
  unfold drawNfa at h h'
  cases ha : nfaToArrows n with
  | none => rw [ha] at h; cases h
  | some as =>
    rw [ha] at h h'
    exact draw_tips m e o ord h h'

example : ((drawDfa { Options.default with xOffset := 7, yOffset := -40 } id Samples.endsB).map circles) = some
    [(⟨107, 100⟩, 30), (⟨107, 100⟩, 25), (⟨187, 100⟩, 30)] := by decide +kernel
example : ((drawDfa (Options.default.grown 2) id Samples.endsB).map circles) = some
    [(⟨200, 280⟩, 60), (⟨200, 280⟩, 50), (⟨360, 280⟩, 60)] := by decide +kernel
example : ((drawDfa Options.default id Samples.endsB).map (fun ops => (ops.length, ops.countP Op.isLine))) = some (59, 34) := by decide +kernel
example : ((drawDfa { Options.default with middleArrow := false } id Samples.endsB).map (fun ops => (ops.length, ops.countP Op.isLine))) = some (51, 26) := by
  decide +kernel
example : drawDfa (Options.default.styled 1 1 1 1 (0, 0, 0) (9, 9, 9) (0, 0, 0)) id Samples.endsB ≠ drawDfa Options.default id Samples.endsB := by
  decide +kernel

/-! ## C120 -/

/-- **C120** In the drawing of a valid DFA no line touches a circle, provided that the sizes are sensible (`Roomy`), margin and padding are not
zero, and the drawing is not flattened (`Roomy`: the vertical scale is at least the horizontal one). -/
theorem C120_dfa (o : Options) (hr : o.Roomy) (hm : 0 < o.lineCircleMargin) (hp : 0 < o.centerLinePadding)
    (ord : List GroupedArrow → List GroupedArrow) (ho : ∀ l, (ord l).Perm l) (d : Dfa) (h : d.WF) :
    ∃ ops, drawDfa o ord d = some ops ∧ Clear ops := by
  obtain ⟨as, h1, h2⟩ := dfa_groups ord ho h
  obtain ⟨placed, levels, h3, h4⟩ := layout_ok ord as h2
  refine ⟨_, ?_, raw_clear hr hm hp (states := d.states.map State.ofDfa) h4.below⟩
  unfold drawDfa draw
  simp only [h1, h3, Option.bind_eq_bind, Option.bind_some]
  rfl

/-- **C120** The same for NFAs. -/
theorem C120_nfa (o : Options) (hr : o.Roomy) (hm : 0 < o.lineCircleMargin) (hp : 0 < o.centerLinePadding)
    (ord : List GroupedArrow → List GroupedArrow) (ho : ∀ l, (ord l).Perm l) (n : Nfa) (h : n.WF) :
    ∃ ops, drawNfa o ord n = some ops ∧ Clear ops := by
  obtain ⟨as, h1, h2⟩ := nfa_groups ord ho h
  obtain ⟨placed, levels, h3, h4⟩ := layout_ok ord as h2
  refine ⟨_, ?_, raw_clear hr hm hp (states := n.states.map State.ofNfa) h4.below⟩
  unfold drawNfa draw
  simp only [h1, h3, Option.bind_eq_bind, Option.bind_some]
  rfl

/-- The default options satisfy the conditions. -/
theorem C120_default : Options.default.Roomy ∧ 0 < Options.default.lineCircleMargin ∧ 0 < Options.default.centerLinePadding := by
  refine ⟨?_, by decide +kernel, by decide +kernel⟩
  constructor <;> (try constructor) <;> (try constructor) <;> decide +kernel

private theorem squeezed_touches {states : List Draw.State} {placed : List (PlacedArrow GroupedArrow)} {levels : Nat} {ops : List Op}
    (hd : DrawnOn { Options.default with yScale := 1 / 2 } states placed levels ops) {p : PlacedArrow GroupedArrow} (hp : p ∈ placed)
    (hlt : p.arrow.left < states.length) : ¬ Clear ops := by
  intro hc
  obtain ⟨l1, _, _⟩ := hd.lines p hp
  obtain ⟨s, hs⟩ : ∃ s, states[p.arrow.left]? = some s := ⟨_, List.getElem?_eq_getElem hlt⟩
  have := hc _ _ l1 _ _ (by
    rw [hd.circles]
    exact List.mem_flatMap.2 ⟨(s, p.arrow.left), List.mem_zipIdx_iff_getElem?.2 hs, List.mem_cons_self⟩) 0 (le_refl _) (by norm_num)
  simp only [Outside, Pos2.along, Options.onCanvas, Options.leftEnd, Options.stateY, Options.default] at this
  norm_num at this
  ring_nf at this
  norm_num at this

private theorem flat_sensible : ({ Options.default with yScale := 1 / 2 } : Options).Sensible :=
  ⟨by decide, by decide +kernel, by decide, by decide, by decide, by decide, by decide, by decide, by decide +kernel⟩

private theorem placed_left {ls : Nat → Nat → List Str} {n levels : Nat} {gs : List GroupedArrow} {placed : List (PlacedArrow GroupedArrow)}
    (hg : Groups ls gs) (hi : Inside n ls) (hp : Placement GroupedArrow.left GroupedArrow.right gs placed levels) {i j : Nat} (hne : ls i j ≠ []) :
    ∃ p ∈ placed, p.arrow.left < n := by
  obtain ⟨g, hgm, rfl, rfl⟩ := hg.all i j hne
  obtain ⟨p, hpm, rfl⟩ := List.mem_map.1 (hp.each.mem_iff.2 hgm)
  refine ⟨p, hpm, ?_⟩
  obtain ⟨e1, _, _⟩ := ends_eq (hg.oriented _ hgm)
  have := hi _ _ hne
  omega

/-- **C120** Flattened drawings: circles are not flattened with the rest (their radius follows the horizontal scale only), so that arrows reach
into circles. This is so with the default sizes and half the height for every valid DFA with a transition. -/
theorem C120_flat_dfa_false (ord : List GroupedArrow → List GroupedArrow) (ho : ∀ l, (ord l).Perm l) (d : Dfa) (h : d.WF) (i j : Nat) (e : Str)
    (ht : d.Run i [e] j) : ∃ ops, drawDfa { Options.default with yScale := 1 / 2 } ord d = some ops ∧ ¬ Clear ops := by
  obtain ⟨ops, gs, placed, levels, h1, h2, h3, h4⟩ := C66_dfa _ flat_sensible ord ho d h
  obtain ⟨p, hp, hl⟩ := placed_left h2 (dfa_inside h) h3 (List.ne_nil_of_mem ((C56_dfa_labels d h i j e).2 ht))
  exact ⟨ops, h1, squeezed_touches h4 hp (by rw [List.length_map]; exact hl)⟩

/-- **C120** The same for every valid NFA with a transition. -/
theorem C120_flat_nfa_false (ord : List GroupedArrow → List GroupedArrow) (ho : ∀ l, (ord l).Perm l) (n : Nfa) (h : n.WF) (i j : Nat)
    (ht : nfaLabels n i j ≠ []) : ∃ ops, drawNfa { Options.default with yScale := 1 / 2 } ord n = some ops ∧ ¬ Clear ops := by
  obtain ⟨ops, gs, placed, levels, h1, h2, h3, h4⟩ := C66_nfa _ flat_sensible ord ho n h
  obtain ⟨p, hp, hl⟩ := placed_left h2 (nfa_inside h) h3 ht
  exact ⟨ops, h1, squeezed_touches h4 hp (by rw [List.length_map]; exact hl)⟩

example : Samples.endsB.Run 0 [c!"a"] 1 := (C56_dfa_labels _ Samples.endsB_wf 0 1 c!"a").1 (by decide +kernel)
example : nfaLabels Samples.evenA 0 1 ≠ [] := by decide +kernel

/-! ## Instances of the theorems of this file -/

example := C119_dfa_moved Options.default ⟨7, -40⟩ List.reverse Samples.endsB
example := C119_nfa_moved Options.default ⟨7, -40⟩ List.reverse Samples.epsNfa
example := C119_dfa_scaled Options.default 2 List.reverse Samples.endsB
example := C119_nfa_scaled Options.default 2 List.reverse Samples.epsNfa
example := C119_dfa_styled 1 2 3 4 (1, 2, 3) (4, 5, 6) (7, 8, 9) Options.default List.reverse Samples.endsB
example := C119_nfa_styled 1 2 3 4 (1, 2, 3) (4, 5, 6) (7, 8, 9) Options.default List.reverse Samples.epsNfa
example := C120_dfa Options.default C120_default.1 C120_default.2.1 C120_default.2.2 List.reverse (fun l => List.reverse_perm l)
  Samples.endsB Samples.endsB_wf
example := C120_nfa Options.default C120_default.1 C120_default.2.1 C120_default.2.2 List.reverse (fun l => List.reverse_perm l)
  Samples.epsNfa Samples.epsNfa_wf
example := C119_dfa_tips false true Options.default List.reverse Samples.endsB _ _ rfl rfl
example := C119_nfa_tips true false Options.default List.reverse Samples.epsNfa _ _ rfl rfl

end Dandy
