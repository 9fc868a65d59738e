import Verif.Proofs.Backends
import Verif.Props.Draw
/-! # C66 (all lines), C68, C69: what can be seen of a drawing -/

namespace Dandy
open Draw

/-- What is drawn for a DFA. -/
theorem drawDfa_raw (o : Options) (ord : List GroupedArrow → List GroupedArrow) (ho : ∀ l, (ord l).Perm l) {d : Dfa} (h : d.WF) :
    ∃ gs placed levels, drawDfa o ord d = some ((rawOps o (d.states.map dfaState) placed levels).map o.placeOp) ∧ Groups (dfaLabels d) gs ∧
      Placement GroupedArrow.left GroupedArrow.right gs placed levels := by
  obtain ⟨as, h1, h2⟩ := dfa_groups ord ho h
  obtain ⟨placed, levels, h3, h4⟩ := layout_ok ord as h2
  refine ⟨_, placed, levels, ?_, h2, h4⟩
  unfold drawDfa draw
  simp only [h1, h3, Option.bind_eq_bind, Option.bind_some]
  rfl

/-- What is drawn for an NFA. -/
theorem drawNfa_raw (o : Options) (ord : List GroupedArrow → List GroupedArrow) (ho : ∀ l, (ord l).Perm l) {n : Nfa} (h : n.WF) :
    ∃ gs placed levels, drawNfa o ord n = some ((rawOps o (n.states.map nfaState) placed levels).map o.placeOp) ∧ Groups (nfaLabels n) gs ∧
      Placement GroupedArrow.left GroupedArrow.right gs placed levels := by
  obtain ⟨as, h1, h2⟩ := nfa_groups ord ho h
  obtain ⟨placed, levels, h3, h4⟩ := layout_ok ord as h2
  refine ⟨_, placed, levels, ?_, h2, h4⟩
  unfold drawNfa draw
  simp only [h1, h3, Option.bind_eq_bind, Option.bind_some]
  rfl

theorem placement_oriented {ls : Nat → Nat → List Str} {gs : List GroupedArrow} {placed : List (PlacedArrow GroupedArrow)} {levels : Nat}
    (hg : Groups ls gs) (hp : Placement GroupedArrow.left GroupedArrow.right gs placed levels) : ∀ p ∈ placed, p.arrow.Oriented :=
  fun _ hm => hg.oriented _ (hp.each.mem_iff.1 (List.mem_map.2 ⟨_, hm, rfl⟩))

/-- **C66** All lines of the drawing of a DFA: the arrow at the left, the mark of the initial state, and the arrows of the groups, each
with a tip at the target and a tip in the middle pointing to the side of the target. There are no other lines. -/
theorem C66_dfa_lines (o : Options) (ord : List GroupedArrow → List GroupedArrow) (ho : ∀ l, (ord l).Perm l) (d : Dfa) (h : d.WF) :
    ∃ ops gs placed levels, drawDfa o ord d = some ops ∧ Groups (dfaLabels d) gs ∧
      Placement GroupedArrow.left GroupedArrow.right gs placed levels ∧
      lines ops = o.leftArrow levels ++ o.mark levels d.initialState ++ placed.flatMap (o.arrow levels) ∧
      (o.Sensible → DrawnOn o (d.states.map dfaState) placed levels ops) := by
  obtain ⟨gs, placed, levels, h1, h2, h3⟩ := drawDfa_raw o ord ho h
  refine ⟨_, gs, placed, levels, h1, h2, h3, ?_, fun hs => drawnOn hs (d.states.map dfaState) h2.oriented h3⟩
  rw [raw_lines h3.below (placement_oriented h2 h3)]
  congr 2
  have hone : ∀ (l : List Draw.State) (k i : Nat), i < l.length → (∀ j s, l[j]? = some s → (s.initial = true ↔ j = i)) →
      (l.zipIdx k).flatMap (fun x => if x.1.initial then o.mark levels x.2 else []) = o.mark levels (i + k) := by
    intro l
    induction l with
    | nil => intro k i hi; simp at hi
    | cons a l ih =>
      intro k i hi hf
      rw [List.zipIdx_cons, List.flatMap_cons]
      rcases i with _ | i
      · have ha : a.initial = true := (hf 0 a rfl).2 rfl
        have hno : (l.zipIdx (k + 1)).flatMap (fun x => if x.1.initial then o.mark levels x.2 else []) = [] := by
          rw [List.flatMap_eq_nil_iff]
          rintro ⟨s, j⟩ hj
          obtain ⟨j', hj'⟩ : ∃ j', l[j']? = some s := by
            obtain ⟨m, hm⟩ := List.mem_iff_getElem?.1 hj
            rw [List.getElem?_zipIdx, Option.map_eq_some_iff] at hm
            obtain ⟨s', hs', he⟩ := hm
            cases he
            exact ⟨m, hs'⟩
          have := (hf (j' + 1) s hj').1
          rw [if_neg]
          intro hs
          exact absurd (this hs) (by omega)
        rw [hno, if_pos ha, List.append_nil, Nat.zero_add]
      · have ha : ¬ a.initial = true := fun hh => absurd ((hf 0 a rfl).1 hh) (by omega)
        rw [if_neg ha, List.nil_append, ih (k + 1) i (by simpa using hi) (fun j s hj => by
          rw [hf (j + 1) s hj]; omega)]
        congr 1
        omega
  have := hone (d.states.map dfaState) 0 d.initialState (by simpa using h.init_lt) ?_
  · rw [this, Nat.add_zero]
  · intro j s hs
    rw [List.getElem?_map, Option.map_eq_some_iff] at hs
    obtain ⟨st, hst, rfl⟩ := hs
    exact h.init_flag j st hst

/-- **C66** The same for NFAs. -/
theorem C66_nfa_lines (o : Options) (ord : List GroupedArrow → List GroupedArrow) (ho : ∀ l, (ord l).Perm l) (n : Nfa) (h : n.WF) :
    ∃ ops gs placed levels, drawNfa o ord n = some ops ∧ Groups (nfaLabels n) gs ∧
      Placement GroupedArrow.left GroupedArrow.right gs placed levels ∧
      lines ops = o.leftArrow levels ++ (n.states.map nfaState).zipIdx.flatMap (fun x => if x.1.initial then o.mark levels x.2 else []) ++
        placed.flatMap (o.arrow levels) ∧
      (o.Sensible → DrawnOn o (n.states.map nfaState) placed levels ops) := by
  obtain ⟨gs, placed, levels, h1, h2, h3⟩ := drawNfa_raw o ord ho h
  exact ⟨_, gs, placed, levels, h1, h2, h3, raw_lines h3.below (placement_oriented h2 h3), fun hs => drawnOn hs (n.states.map nfaState) h2.oriented h3⟩

/-- The lines of a drawing with two loops and two arrows: 3 for the arrow at the left, 3 for the mark, 7 for each arrow. -/
example : ((drawDfa Options.default id Samples.endsB).map (fun ops => (lines ops).length)) = some 34 := by decide +kernel

/-- **C68** Names and labels are drawn in the text colour, circles in the circle colour, lines in the line colour. -/
theorem C68_colours (o : Options) (ord : List GroupedArrow → List GroupedArrow) (ho : ∀ l, (ord l).Perm l) (c : Color) :
    (∀ d : Dfa, d.WF → ∃ ops, drawDfa o ord d = some ops ∧ ∀ it ∈ items c ops, it.Coloured o) ∧
    ∀ n : Nfa, n.WF → ∃ ops, drawNfa o ord n = some ops ∧ ∀ it ∈ items c ops, it.Coloured o := by
  constructor
  · intro d h
    obtain ⟨gs, placed, levels, h1, _⟩ := drawDfa_raw o ord ho h
    exact ⟨_, h1, raw_good _ _ _ c⟩
  · intro n h
    obtain ⟨gs, placed, levels, h1, _⟩ := drawNfa_raw o ord ho h
    exact ⟨_, h1, raw_good _ _ _ c⟩

/-- **C68** With egui exactly this can be seen, in this order, on top of what was painted before. -/
theorem C68_egui (shapes : List Egui.Shape) (ops : List Op) :
    ∃ ss, (Egui.run (Egui.new shapes) ops).shapes = shapes ++ ss ∧ List.Forall₂ Egui.Visible ss (items (0, 255, 0) ops) :=
  egui_run ops (Egui.new shapes)

example : ((drawDfa Options.default id Samples.endsB).map (fun ops => (Egui.run (Egui.new []) ops).shapes.take 2)) = some
    [.lineSegment ⟨0, 140⟩ ⟨50, 140⟩ 3 (0, 255, 255), .lineSegment ⟨50, 140⟩ ⟨35, 125⟩ 3 (0, 255, 255)] := by decide +kernel

/-- **C68** Whatever the state of the context, after `set_color` lines, circles and texts are painted in exactly the given colour: the text that is
handed to the context is read by the rules of CSS as that colour. -/
theorem C68_set_color (ctx : Canvas.Context) (rgb : Color) :
    ∃ ctx', Canvas.exec ctx (.color rgb) = some ctx' ∧ ctx'.strokeStyle = rgb ∧ ctx'.fillStyle = rgb ∧ ctx'.path = ctx.path ∧
      ctx'.painted = ctx.painted ∧ ctx'.lineWidth = ctx.lineWidth :=
  ⟨_, exec_color ctx rgb, rfl, rfl, rfl, rfl, rfl⟩

example : Canvas.rgbText (0, 255, 150) = c!"rgb(0 255 150)" ∧ Canvas.Css.color c!"rgb(0 255  150)" = some (0, 255, 150) ∧
    Canvas.Css.color c!"rgb(0 300 150)" = some (0, 255, 150) ∧ Canvas.Css.color c!"rgb(0, 255, 150" = none := by decide +kernel

/-- **C68** (partial) On a canvas, whatever the state of its context, this can be seen too, but at the end the last line or circle is drawn
once more, in the text colour. -/
theorem C68_canvas_partial (o : Options) (hd : o.Drawable) (ord : List GroupedArrow → List GroupedArrow) (ho : ∀ l, (ord l).Perm l)
    (ctx : Canvas.Context) (c : Color) :
    (∀ d : Dfa, d.WF → ∃ ops ctx' ps again it, drawDfa o ord d = some ops ∧ Canvas.run (Canvas.new ctx) ops = some ctx' ∧
      ctx'.painted = ctx.painted ++ ps ++ [again] ∧ List.Forall₂ Canvas.Visible ps (items c ops) ∧
      ((items c ops).filter Item.isOutline).getLast? = some it ∧ Canvas.Visible again (it.recolor o.textColor)) ∧
    ∀ n : Nfa, n.WF → ∃ ops ctx' ps again it, drawNfa o ord n = some ops ∧ Canvas.run (Canvas.new ctx) ops = some ctx' ∧
      ctx'.painted = ctx.painted ++ ps ++ [again] ∧ List.Forall₂ Canvas.Visible ps (items c ops) ∧
      ((items c ops).filter Item.isOutline).getLast? = some it ∧ Canvas.Visible again (it.recolor o.textColor) := by
  constructor
  · intro d h
    obtain ⟨gs, placed, levels, h1, _⟩ := drawDfa_raw o ord ho h
    have hne : d.states.map dfaState ≠ [] := by
      intro e
      have := h.init_lt
      rw [List.map_eq_nil_iff.1 e] at this
      exact absurd this (Nat.not_lt_zero _)
    obtain ⟨c', ps, again, it, h2, h3, h4, h5, h6⟩ := canvas_draw hd hne placed levels ctx c
    exact ⟨_, c', ps, again, it, h1, h2, h3, h4, h5, h6⟩
  · intro n h
    obtain ⟨gs, placed, levels, h1, _⟩ := drawNfa_raw o ord ho h
    have hne : n.states.map nfaState ≠ [] := by
      intro e
      have := h.init_lt
      rw [List.map_eq_nil_iff.1 e] at this
      exact absurd this (Nat.not_lt_zero _)
    obtain ⟨c', ps, again, it, h2, h3, h4, h5, h6⟩ := canvas_draw hd hne placed levels ctx c
    exact ⟨_, c', ps, again, it, h1, h2, h3, h4, h5, h6⟩

/-- The default options can be drawn. -/
theorem default_drawable : Options.default.Drawable := by
  constructor <;> decide +kernel

/-- **C68** So the canvas does not show what is asked for: with the default options, one line of the last arrow is white (the text
colour) instead of cyan (the line colour). -/
theorem C68_canvas_false : ∃ ops ctx, drawDfa Options.default id Samples.endsB = some ops ∧
    Canvas.run (Canvas.new .fresh) ops = some ctx ∧ ∃ p ∈ ctx.painted, ∃ it, Canvas.Visible p it ∧ ¬ it.Coloured Options.default := by
  have h : ((drawDfa Options.default id Samples.endsB).bind (Canvas.run (Canvas.new .fresh))).map (fun ctx => ctx.painted.getLast?) =
      some (some (.stroke [.moveTo ⟨165, 100⟩, .lineTo ⟨170, 95⟩, .close] 3 (255, 255, 255))) := by decide +kernel
  obtain ⟨ctx, h1, h2⟩ := Option.map_eq_some_iff.1 h
  obtain ⟨ops, h3, h4⟩ := Option.bind_eq_some_iff.1 h1
  exact ⟨ops, ctx, h3, h4, _, List.mem_of_getLast? h2, _, .closedLine,
    show ¬ ((255, 255, 255) : Color) = Options.default.lineColor by decide⟩

/-- **C68** A drawer made with `from_element` from a new canvas does not centre the texts: no name of a state and no label can be seen where
it belongs. -/
theorem C68_from_element_false : ∃ ops ctx, drawDfa Options.default id Samples.endsB = some ops ∧
    Canvas.run (Canvas.fromElement .fresh) ops = some ctx ∧ ∀ p ∈ ctx.painted, ∀ pos s c, ¬ Canvas.Visible p (.text pos s c) := by
  have h : ((drawDfa Options.default id Samples.endsB).bind (Canvas.run (Canvas.fromElement .fresh))).map
      (fun ctx => ctx.painted.all (fun p => match p with
        | .text _ _ _ a _ => a != c!"center"
        | _ => true)) = some true := by decide +kernel
  obtain ⟨ctx, h1, h2⟩ := Option.map_eq_some_iff.1 h
  obtain ⟨ops, h3, h4⟩ := Option.bind_eq_some_iff.1 h1
  refine ⟨ops, ctx, h3, h4, ?_⟩
  intro p hp pos s c hv
  have := List.all_eq_true.1 h2 p hp
  cases hv
  simp at this

/-- **C69** Drawing on a canvas panics exactly if a circle to be drawn has a negative radius after scaling (so never for the default
options). -/
theorem C69_canvas_panics_iff (o : Options) (hs : o.Sensible) (ord : List GroupedArrow → List GroupedArrow) (ho : ∀ l, (ord l).Perm l)
    (ctx : Canvas.Context) :
    (∀ d : Dfa, d.WF → ∃ ops, drawDfa o ord d = some ops ∧ (Canvas.run (Canvas.new ctx) ops = none ↔
      o.xScale < 0 ∨ (∃ s ∈ d.states, s.accepting = true) ∧ o.acceptingCircleRadius * o.xScale < 0)) ∧
    ∀ n : Nfa, n.WF → ∃ ops, drawNfa o ord n = some ops ∧ (Canvas.run (Canvas.new ctx) ops = none ↔
      o.xScale < 0 ∨ (∃ s ∈ n.states, s.accepting = true) ∧ o.acceptingCircleRadius * o.xScale < 0) := by
  have key : ∀ (states : List Draw.State) (levels : Nat), states ≠ [] →
      ((∃ x ∈ states.zipIdx.flatMap (fun x => (o.onCanvas (o.stateX x.2) (o.stateY levels), o.circleRadius * o.xScale) ::
        if x.1.accepting then [(o.onCanvas (o.stateX x.2) (o.stateY levels), o.acceptingCircleRadius * o.xScale)] else []), x.2 < 0) ↔
      o.xScale < 0 ∨ (∃ s ∈ states, s.accepting = true) ∧ o.acceptingCircleRadius * o.xScale < 0) := by
    intro states levels hne
    have hneg : o.circleRadius * o.xScale < 0 ↔ o.xScale < 0 := by
      have := hs.radius
      constructor
      · intro h
        by_contra hx
        have := mul_nonneg this.le (not_lt.1 hx)
        linarith
      · intro h
        exact mul_neg_of_pos_of_neg this h
    constructor
    · rintro ⟨x, hx, hlt⟩
      obtain ⟨y, hy, hx⟩ := List.mem_flatMap.1 hx
      have hmem : y.1 ∈ states := by
        obtain ⟨m, hm⟩ := List.mem_iff_getElem?.1 hy
        rw [List.getElem?_zipIdx, Option.map_eq_some_iff] at hm
        obtain ⟨s', hs', rfl⟩ := hm
        exact List.mem_of_getElem? hs'
      rcases List.mem_cons.1 hx with rfl | hx
      · exact .inl (hneg.1 hlt)
      · split at hx
        · rename_i hacc
          rw [List.mem_singleton] at hx
          subst hx
          exact .inr ⟨⟨_, hmem, hacc⟩, hlt⟩
        · cases hx
    · rintro (hx | ⟨⟨s, hsm, hacc⟩, hlt⟩)
      · cases states with
        | nil => exact absurd rfl hne
        | cons a l => exact ⟨_, List.mem_flatMap.2 ⟨(a, 0), by simp, List.mem_cons_self⟩, hneg.2 hx⟩
      · obtain ⟨i, hi⟩ := List.mem_iff_getElem?.1 hsm
        refine ⟨(o.onCanvas (o.stateX i) (o.stateY levels), o.acceptingCircleRadius * o.xScale), List.mem_flatMap.2 ⟨(s, i), List.mem_of_getElem? (i := i) (by rw [List.getElem?_zipIdx, hi]; simp), ?_⟩, hlt⟩
        rw [if_pos hacc]
        exact List.mem_cons_of_mem _ (List.mem_singleton.2 rfl)
  constructor
  · intro d h
    obtain ⟨ops, gs, placed, levels, h1, h2, h3, h4⟩ := C66_dfa o hs ord ho d h
    refine ⟨ops, h1, ?_⟩
    rw [canvas_none, h4.circles, key]
    · simp [dfaState]
    · intro e
      have := h.init_lt
      rw [List.map_eq_nil_iff.1 e] at this
      exact absurd this (Nat.not_lt_zero _)
  · intro n h
    obtain ⟨ops, gs, placed, levels, h1, h2, h3, h4⟩ := C66_nfa o hs ord ho n h
    refine ⟨ops, h1, ?_⟩
    rw [canvas_none, h4.circles, key]
    · simp [nfaState]
    · intro e
      have := h.init_lt
      rw [List.map_eq_nil_iff.1 e] at this
      exact absurd this (Nat.not_lt_zero _)

/-- A mirrored drawing has sensible sizes (egui draws it), but on a canvas it panics. -/
def mirrored : Options := { Options.default with xScale := -1 }

example : mirrored.Sensible ∧ ((drawDfa mirrored id Samples.endsB).map (fun ops => (Canvas.run (Canvas.new .fresh) ops).isNone)) = some true :=
  ⟨by constructor <;> decide +kernel, by decide +kernel⟩

/-! ## Instances of the theorems of this file -/

example := C66_dfa_lines Options.default List.reverse (fun l => List.reverse_perm l) Samples.endsB Samples.endsB_wf
example := C68_colours Options.default List.reverse (fun l => List.reverse_perm l) (1, 2, 3)
example := C68_canvas_partial Options.default default_drawable List.reverse (fun l => List.reverse_perm l) Canvas.Context.fresh (1, 2, 3)

end Dandy
