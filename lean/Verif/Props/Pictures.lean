import Verif.Props.DrawSight
/-! # C87 on the canvas and in the window: what has been painted determines the automaton -/

namespace Dandy
open Draw
open Samples (s)

namespace Draw

private theorem circle_iff (x : Pos2 × Rat) : ∀ (ops : List Op) (c : Color), x ∈ circles ops ↔ ∃ w k, Item.circle x.1 x.2 w k ∈ items c ops
  | [], _ => by simp [circles, items]
  | op :: ops, c => by
    have ih := circle_iff x ops
    cases op <;> simp only [circles, List.filterMap_cons, items, List.mem_cons, reduceCtorEq, false_or, Item.circle.injEq] at ih ⊢
    case circle p r w =>
      rw [ih c]
      constructor
      · rintro (rfl | ⟨w, k, h⟩)
        · exact ⟨_, _, .inl ⟨rfl, rfl, rfl, rfl⟩⟩
        · exact ⟨_, _, .inr h⟩
      · rintro ⟨w, k, ⟨h1, h2, _⟩ | h⟩
        · exact .inl (Prod.ext h1 h2)
        · exact .inr ⟨_, _, h⟩
    all_goals exact ih _

private theorem text_iff (x : Pos2 × Str) : ∀ (ops : List Op) (c : Color), x ∈ texts ops ↔ ∃ k, Item.text x.1 x.2 k ∈ items c ops
  | [], _ => by simp [texts, items]
  | op :: ops, c => by
    have ih := text_iff x ops
    cases op <;> simp only [texts, List.filterMap_cons, items, List.mem_cons, reduceCtorEq, false_or, Item.text.injEq] at ih ⊢
    case text p r =>
      rw [ih c]
      constructor
      · rintro (rfl | ⟨k, h⟩)
        · exact ⟨_, .inl ⟨rfl, rfl, rfl⟩⟩
        · exact ⟨_, .inr h⟩
      · rintro ⟨k, ⟨h1, h2, _⟩ | h⟩
        · exact .inl (Prod.ext h1 h2)
        · exact .inr ⟨_, h⟩
    all_goals exact ih _

private theorem line_iff (x : Pos2 × Pos2 × Rat) : ∀ (ops : List Op) (c : Color),
    x ∈ lines ops ↔ ∃ k, Item.line x.1 x.2.1 x.2.2 k ∈ items c ops
  | [], _ => by simp [lines, items]
  | op :: ops, c => by
    have ih := line_iff x ops
    cases op <;> simp only [lines, List.filterMap_cons, items, List.mem_cons, reduceCtorEq, false_or, Item.line.injEq] at ih ⊢
    case line p r w =>
      rw [ih c]
      constructor
      · rintro (rfl | ⟨k, h⟩)
        · exact ⟨_, .inl ⟨rfl, rfl, rfl, rfl⟩⟩
        · exact ⟨_, .inr h⟩
      · rintro ⟨k, ⟨h1, h2, h3, _⟩ | h⟩
        · exact .inl (Prod.ext h1 (Prod.ext h2 h3))
        · exact .inr ⟨_, h⟩
    all_goals exact ih _

private theorem sameSight {ops ops' : List Op} {c c' : Color}
    (h : ∀ it : Item, (∃ k, it.recolor k ∈ items c ops) ↔ ∃ k, it.recolor k ∈ items c' ops') : SameSight ops ops' := by
  refine ⟨fun x => ?_, fun x => ?_, fun x => ?_⟩
  · rw [circle_iff x ops c, circle_iff x ops' c']
    exact exists_congr fun w => h (.circle x.1 x.2 w (0, 0, 0))
  · rw [text_iff x ops c, text_iff x ops' c']
    exact h (.text x.1 x.2 (0, 0, 0))
  · rw [line_iff x ops c, line_iff x ops' c']
    exact h (.line x.1 x.2.1 x.2.2 (0, 0, 0))

private theorem recolor_recolor (it : Item) (j k : Color) : (it.recolor j).recolor k = it.recolor k := by cases it <;> rfl

private theorem visible_unique {p : Canvas.Paint} {a b : Item} (h : Canvas.Visible p a) (h' : Canvas.Visible p b) : a = b := by
  cases h <;> cases h' <;> rfl

private theorem egui_unique {p : Egui.Shape} {a b : Item} (h : Egui.Visible p a) (h' : Egui.Visible p b) : a = b := by
  cases h <;> cases h' <;> rfl

private theorem forall₂_left {α β : Type} {R : α → β → Prop} {as : List α} {bs : List β} (h : List.Forall₂ R as bs) :
    ∀ a ∈ as, ∃ b ∈ bs, R a b := by
  induction h with
  | nil => simp
  | cons h _ ih =>
    intro a ha
    rcases List.mem_cons.1 ha with rfl | ha
    · exact ⟨_, List.mem_cons_self, h⟩
    · obtain ⟨b, hb, h⟩ := ih a ha
      exact ⟨b, List.mem_cons_of_mem _ hb, h⟩

private theorem canvas_shows {c : Canvas.Context} {ps : List Canvas.Paint} {again : Canvas.Paint} {its : List Item} {last : Item} {k : Color}
    (h1 : c.painted = [] ++ ps ++ [again]) (h2 : List.Forall₂ Canvas.Visible ps its) (h3 : last ∈ its)
    (h4 : Canvas.Visible again (last.recolor k)) (it : Item) : Canvas.Shows c it ↔ ∃ j, it.recolor j ∈ its := by
  constructor
  · rintro ⟨p, hp, j, hv⟩
    rw [h1, List.nil_append, List.mem_append, List.mem_singleton] at hp
    rcases hp with hp | rfl
    · obtain ⟨it', hit, hv'⟩ := forall₂_left h2 p hp
      exact ⟨j, visible_unique hv hv' ▸ hit⟩
    · have := visible_unique hv h4
      have back : ∃ i, last = last.recolor i := by cases last <;> exact ⟨_, rfl⟩
      obtain ⟨i, hi⟩ := back
      refine ⟨i, ?_⟩
      rw [← recolor_recolor it j i, this, recolor_recolor, ← hi]
      exact h3
  · rintro ⟨j, hj⟩
    obtain ⟨p, hp, hv⟩ := forall₂_left h2.flip _ hj
    exact ⟨p, by rw [h1]; simp [hp], j, hv⟩

private theorem egui_shows {e : Egui.Drawer} {ss : List Egui.Shape} {its : List Item} (h1 : e.shapes = [] ++ ss)
    (h2 : List.Forall₂ Egui.Visible ss its) (it : Item) : Egui.Shows e it ↔ ∃ j, it.recolor j ∈ its := by
  constructor
  · rintro ⟨p, hp, j, hv⟩
    rw [h1] at hp
    obtain ⟨it', hit, hv'⟩ := forall₂_left h2 p hp
    exact ⟨j, egui_unique hv hv' ▸ hit⟩
  · rintro ⟨j, hj⟩
    obtain ⟨p, hp, hv⟩ := forall₂_left h2.flip _ hj
    exact ⟨p, by rw [h1]; exact hp, j, hv⟩

end Draw

private theorem last_mem {l : List Item} {it : Item} (h : (l.filter Item.isOutline).getLast? = some it) : it ∈ l :=
  List.mem_of_mem_filter (List.mem_of_getLast? h)

/-- **C87** Two valid DFAs drawn on empty canvases, whatever the states of the contexts: if the canvases look the same, be it in other
colours, the DFAs have the same states, elements, runs and words. -/
theorem C87_dfa_canvas (o : Options) (ht : o.Telling) (hw : o.Drawable) (ord ord' : List GroupedArrow → List GroupedArrow)
    (ho : ∀ l, (ord l).Perm l) (ho' : ∀ l, (ord' l).Perm l) (d d' : Dfa) (h : d.WF) (h' : d'.WF) (hb : ∀ e ∈ d.alphabet, ' ' ∉ e)
    (hb' : ∀ e ∈ d'.alphabet, ' ' ∉ e) (c c' : Canvas.Context) (hc : c.painted = []) (hc' : c'.painted = []) :
    ∃ r r', (drawDfa o ord d).bind (Canvas.run (Canvas.new c)) = some r ∧ (drawDfa o ord' d').bind (Canvas.run (Canvas.new c')) = some r' ∧
      ((∀ it, Canvas.Shows r it ↔ Canvas.Shows r' it) →
        d.states.map (fun st => (st.name, st.accepting, st.initial)) = d'.states.map (fun st => (st.name, st.accepting, st.initial)) ∧
        d.initialState = d'.initialState ∧ SameElems d.alphabet d'.alphabet ∧ (∀ i w j, d.Run i w j ↔ d'.Run i w j) ∧
        ∀ w, d.Lang w ↔ d'.Lang w) := by
  obtain ⟨ops, ops', e, e', hsame⟩ := C87_dfa o ht ord ord' ho ho' d d' h h' hb hb'
  obtain ⟨_, r, ps, again, it, a1, a2, a3, a4, a5, a6⟩ := (C68_canvas_partial o hw ord ho c (0, 0, 0)).1 d h
  obtain ⟨_, r', ps', again', it', b1, b2, b3, b4, b5, b6⟩ := (C68_canvas_partial o hw ord' ho' c' (0, 0, 0)).1 d' h'
  cases e.symm.trans a1
  cases e'.symm.trans b1
  refine ⟨r, r', by rw [e]; exact a2, by rw [e']; exact b2, fun hs => hsame (Draw.sameSight (c := (0, 0, 0)) (c' := (0, 0, 0)) fun x => ?_)⟩
  rw [hc] at a3
  rw [hc'] at b3
  exact (canvas_shows a3 a4 (last_mem a5) a6 x).symm.trans ((hs x).trans (canvas_shows b3 b4 (last_mem b5) b6 x))

/-- **C87** The same for NFAs. -/
theorem C87_nfa_canvas (o : Options) (ht : o.Telling) (hw : o.Drawable) (ord ord' : List GroupedArrow → List GroupedArrow)
    (ho : ∀ l, (ord l).Perm l) (ho' : ∀ l, (ord' l).Perm l) (n n' : Nfa) (h : n.WF) (h' : n'.WF) (hb : ∀ e ∈ n.alphabet, ' ' ∉ e)
    (hb' : ∀ e ∈ n'.alphabet, ' ' ∉ e) (c c' : Canvas.Context) (hc : c.painted = []) (hc' : c'.painted = []) :
    ∃ r r', (drawNfa o ord n).bind (Canvas.run (Canvas.new c)) = some r ∧ (drawNfa o ord' n').bind (Canvas.run (Canvas.new c')) = some r' ∧
      ((∀ it, Canvas.Shows r it ↔ Canvas.Shows r' it) →
        n.states.map (fun st => (st.name, st.accepting, st.initial)) = n'.states.map (fun st => (st.name, st.accepting, st.initial)) ∧
        n.initialState = n'.initialState ∧ (∀ i j, nfaLabels n i j = nfaLabels n' i j) ∧
        (c!"ε" ∉ n.alphabet → c!"ε" ∉ n'.alphabet → ∀ w, n.Lang w ↔ n'.Lang w)) := by
  obtain ⟨ops, ops', e, e', hsame⟩ := C87_nfa o ht ord ord' ho ho' n n' h h' hb hb'
  obtain ⟨_, r, ps, again, it, a1, a2, a3, a4, a5, a6⟩ := (C68_canvas_partial o hw ord ho c (0, 0, 0)).2 n h
  obtain ⟨_, r', ps', again', it', b1, b2, b3, b4, b5, b6⟩ := (C68_canvas_partial o hw ord' ho' c' (0, 0, 0)).2 n' h'
  cases e.symm.trans a1
  cases e'.symm.trans b1
  refine ⟨r, r', by rw [e]; exact a2, by rw [e']; exact b2, fun hs => hsame (Draw.sameSight (c := (0, 0, 0)) (c' := (0, 0, 0)) fun x => ?_)⟩
  rw [hc] at a3
  rw [hc'] at b3
  exact (canvas_shows a3 a4 (last_mem a5) a6 x).symm.trans ((hs x).trans (canvas_shows b3 b4 (last_mem b5) b6 x))

/-- **C87** The same for DFAs painted with egui. -/
theorem C87_dfa_egui (o : Options) (ht : o.Telling) (ord ord' : List GroupedArrow → List GroupedArrow) (ho : ∀ l, (ord l).Perm l)
    (ho' : ∀ l, (ord' l).Perm l) (d d' : Dfa) (h : d.WF) (h' : d'.WF) (hb : ∀ e ∈ d.alphabet, ' ' ∉ e) (hb' : ∀ e ∈ d'.alphabet, ' ' ∉ e) :
    ∃ r r', (drawDfa o ord d).map (Egui.run (Egui.new [])) = some r ∧ (drawDfa o ord' d').map (Egui.run (Egui.new [])) = some r' ∧
      ((∀ it, Egui.Shows r it ↔ Egui.Shows r' it) →
        d.states.map (fun st => (st.name, st.accepting, st.initial)) = d'.states.map (fun st => (st.name, st.accepting, st.initial)) ∧
        d.initialState = d'.initialState ∧ SameElems d.alphabet d'.alphabet ∧ (∀ i w j, d.Run i w j ↔ d'.Run i w j) ∧
        ∀ w, d.Lang w ↔ d'.Lang w) := by
  obtain ⟨ops, ops', e, e', hsame⟩ := C87_dfa o ht ord ord' ho ho' d d' h h' hb hb'
  obtain ⟨ss, a1, a2⟩ := C68_egui [] ops
  obtain ⟨ss', b1, b2⟩ := C68_egui [] ops'
  exact ⟨_, _, by rw [e]; rfl, by rw [e']; rfl, fun hs => hsame (Draw.sameSight fun x =>
    (egui_shows a1 a2 x).symm.trans ((hs x).trans (egui_shows b1 b2 x)))⟩

/-- **C87** The same for NFAs painted with egui. -/
theorem C87_nfa_egui (o : Options) (ht : o.Telling) (ord ord' : List GroupedArrow → List GroupedArrow) (ho : ∀ l, (ord l).Perm l)
    (ho' : ∀ l, (ord' l).Perm l) (n n' : Nfa) (h : n.WF) (h' : n'.WF) (hb : ∀ e ∈ n.alphabet, ' ' ∉ e) (hb' : ∀ e ∈ n'.alphabet, ' ' ∉ e) :
    ∃ r r', (drawNfa o ord n).map (Egui.run (Egui.new [])) = some r ∧ (drawNfa o ord' n').map (Egui.run (Egui.new [])) = some r' ∧
      ((∀ it, Egui.Shows r it ↔ Egui.Shows r' it) →
        n.states.map (fun st => (st.name, st.accepting, st.initial)) = n'.states.map (fun st => (st.name, st.accepting, st.initial)) ∧
        n.initialState = n'.initialState ∧ (∀ i j, nfaLabels n i j = nfaLabels n' i j) ∧
        (c!"ε" ∉ n.alphabet → c!"ε" ∉ n'.alphabet → ∀ w, n.Lang w ↔ n'.Lang w)) := by
  obtain ⟨ops, ops', e, e', hsame⟩ := C87_nfa o ht ord ord' ho ho' n n' h h' hb hb'
  obtain ⟨ss, a1, a2⟩ := C68_egui [] ops
  obtain ⟨ss', b1, b2⟩ := C68_egui [] ops'
  exact ⟨_, _, by rw [e]; rfl, by rw [e']; rfl, fun hs => hsame (Draw.sameSight fun x =>
    (egui_shows a1 a2 x).symm.trans ((hs x).trans (egui_shows b1 b2 x)))⟩

/-- The elements of `thereAndBack true` in the other order: the same has been painted in the window. -/
example (w : Word) : (thereAndBack true).Lang w ↔ ({ thereAndBack false with alphabet := [s 'b', s 'a'] } : Nfa).Lang w := by
  obtain ⟨r, r', h1, h2, h3⟩ := C87_nfa_egui Options.default C87_default id id (fun _ => .refl _) (fun _ => .refl _)
    (thereAndBack true) { thereAndBack false with alphabet := [s 'b', s 'a'] } (Nfa.wf_of_wfB (by decide)) (Nfa.wf_of_wfB (by decide))
    (by decide) (by decide)
  have e : (some r).map Egui.Drawer.shapes = (some r').map Egui.Drawer.shapes := by rw [← h1, ← h2]; decide +kernel
  exact (h3 fun it => by rw [Egui.Shows, Egui.Shows, Option.some.inj e]).2.2.2 (by decide) (by decide) w

/-- On a canvas, too. -/
example (w : Word) : (thereAndBack true).Lang w ↔ ({ thereAndBack false with alphabet := [s 'b', s 'a'] } : Nfa).Lang w := by
  obtain ⟨r, r', h1, h2, h3⟩ := C87_nfa_canvas Options.default C87_default default_drawable id id (fun _ => .refl _) (fun _ => .refl _)
    (thereAndBack true) { thereAndBack false with alphabet := [s 'b', s 'a'] } (Nfa.wf_of_wfB (by decide)) (Nfa.wf_of_wfB (by decide))
    (by decide) (by decide) .fresh { Canvas.Context.fresh with lineWidth := 7 } rfl rfl
  have e : (some r).map Canvas.Context.painted = (some r').map Canvas.Context.painted := by rw [← h1, ← h2]; decide +kernel
  exact (h3 fun it => by rw [Canvas.Shows, Canvas.Shows, Option.some.inj e]).2.2.2 (by decide) (by decide) w

/-- With the elements of `endsB` in the other order the same arrows come in another order. -/
private def swap : List GroupedArrow → List GroupedArrow
  | a :: b :: c :: d :: l => b :: a :: d :: c :: l
  | l => l

example (w : Word) : Samples.endsB.Lang w ↔ endsB'.Lang w := by
  have hswap : ∀ l, (swap l).Perm l := by
    intro l
    unfold swap
    split
    · exact (List.Perm.swap ..).trans (.cons _ (.cons _ (.swap ..)))
    · exact .refl _
  obtain ⟨r, r', h1, h2, h3⟩ := C87_dfa_canvas Options.default C87_default default_drawable id swap (fun _ => .refl _) hswap Samples.endsB endsB'
    Samples.endsB_wf (Dfa.wf_of_wfB (by decide)) (by decide) (by decide) .fresh .fresh rfl rfl
  have e : (some r).map Canvas.Context.painted = (some r').map Canvas.Context.painted := by rw [← h1, ← h2]; decide +kernel
  exact (h3 fun it => by rw [Canvas.Shows, Canvas.Shows, Option.some.inj e]).2.2.2.2 w

/-! ## Instances of the theorems of this file -/

example := C87_dfa_egui Options.default C87_default List.reverse id (fun l => List.reverse_perm l) (fun _ => .refl _) Samples.endsB
  Samples.oddA Samples.endsB_wf Samples.oddA_wf (by decide) (by decide)

end Dandy
