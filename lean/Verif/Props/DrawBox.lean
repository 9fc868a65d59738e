import Verif.Proofs.DrawBox
import Verif.Props.Draw
import Verif.Props.Site
/-!
# How large drawings are, and whether they fit the canvas of the page

Property C104.
-/

namespace Dandy

open Draw

/-- `ops` draws in a rectangle of a size that depends only on the number `n` of states and the number of heights for arrows; the pairs of states
with transitions `ps` need at least as many heights as there are arrows passing between two neighbours, and at most as many as there are
arrows with their right end below one arrow. The drawing touches the left, the right and the lower side of the rectangle. -/
def Boxed (o : Options) (n : Nat) (ps : List (Nat × Nat)) (levels : Nat) (ops : List Op) : Prop :=
  (∀ k, over ps k ≤ levels) ∧ (∀ k, (∀ q ∈ ps, under ps q ≤ k) → levels ≤ k) ∧
  (∀ c, ∀ it ∈ items c ops, it.In (o.onCanvas 0 0) (o.onCanvas (o.width n) (o.height levels))) ∧
  (∃ y b, HasLine ops (o.onCanvas 0 y) b) ∧
  (∃ y, (o.onCanvas (o.width n - o.circleRadius) y, o.circleRadius * o.xScale) ∈ circles ops) ∧
  (∃ x a, HasLine ops a (o.onCanvas x (o.height levels)))

private theorem draw_box {o : Options} (hr : o.Roomy) {ord : List GroupedArrow → List GroupedArrow} {states : List Draw.State} {arrows : List Arrow}
    {ls : Nat → Nat → List Str} (hg : Groups ls (groupArrows ord arrows)) (hi : Inside states.length ls) (i : Nat) (s : Draw.State)
    (hs : states[i]? = some s) (hinit : s.initial = true) :
    ∃ ops levels, draw o ord states arrows = some ops ∧ Boxed o states.length (labelledPairs ls states.length) levels ops := by
  obtain ⟨placed, levels, h3, h4⟩ := layout_ok ord arrows hg
  have hne : states ≠ [] := by rintro rfl; cases hs
  have hin : ∀ p ∈ placed, p.arrow.left < states.length ∧ p.arrow.right < states.length ∧ p.level < levels := by
    intro p hp
    have hm : p.arrow ∈ groupArrows ord arrows := h4.each.mem_iff.1 (List.mem_map.2 ⟨p, hp, rfl⟩)
    obtain ⟨e1, e2, _⟩ := ends_eq (hg.oriented _ hm)
    obtain ⟨l1, l2⟩ := hg.labels _ hm
    rw [l1] at l2
    have := hi _ _ l2
    exact ⟨by omega, by omega, h4.below p hp⟩
  have hps := pairs_perm hg hi
  refine ⟨(rawOps o states placed levels).map (Op.place ⟨o.xOffset, o.yOffset⟩ ⟨o.xScale, o.yScale⟩), levels, ?_,
    over_le hg h4 hps, fun k => le_under hg h4 hps, fun c => items_in hr _ c (raw_within hr hne hin), ?_, ?_, ?_⟩
  · unfold draw
    rw [h3]
    rfl
  · exact ⟨circleCenter o levels, _, _, List.mem_map.2 ⟨.line ⟨0, circleCenter o levels⟩ ⟨o.initArrowLength, circleCenter o levels⟩ o.initArrowWidth,
      by simp [rawOps, initOps], rfl⟩⟩
  · obtain ⟨last, hlast⟩ : ∃ last, states[states.length - 1]? = some last :=
      ⟨_, List.getElem?_eq_getElem (Nat.sub_lt (List.length_pos_of_ne_nil hne) Nat.one_pos)⟩
    refine ⟨o.stateY levels, ?_⟩
    rw [circles_place, raw_circles]
    refine List.mem_map.2 ⟨(⟨o.stateX (states.length - 1), o.stateY levels⟩, o.circleRadius), List.mem_flatMap.2 ⟨(last, states.length - 1),
      List.mem_zipIdx_iff_getElem?.2 hlast, List.mem_cons_self⟩, ?_⟩
    have e : o.stateX (states.length - 1) = o.width states.length - o.circleRadius := by
      unfold Options.stateX Options.width Options.step
      rw [Nat.cast_sub (List.length_pos_of_ne_nil hne)]
      push_cast
      ring
    rw [e]
  · obtain ⟨t, ht⟩ := (mark_iff hr.sensible (fun p hp => h4.below p hp) hs).2 hinit
    have e : o.height levels = o.stateY levels + (o.circleRadius + o.centerLinePadding) + o.initArrowLength := by
      unfold Options.height
      ring
    rw [e]
    exact ⟨o.stateX i, _, t, List.mem_map.2 ⟨_, ht, rfl⟩⟩

/-- **C104** The size of the drawing of a DFA. -/
theorem C104_dfa (o : Options) (hr : o.Roomy) (ord : List GroupedArrow → List GroupedArrow) (ho : ∀ l, (ord l).Perm l) (d : Dfa) (h : d.WF) :
    ∃ ops levels, drawDfa o ord d = some ops ∧ Boxed o d.states.length (labelledPairs (dfaLabels d) d.states.length) levels ops := by
  obtain ⟨as, h1, h2⟩ := dfa_groups ord ho h
  obtain ⟨s, hs⟩ : ∃ s, d.states[d.initialState]? = some s := ⟨_, List.getElem?_eq_getElem h.init_lt⟩
  have hl : (d.states.map State.ofDfa).length = d.states.length := List.length_map ..
  have := draw_box hr (states := d.states.map State.ofDfa) h2 (by rw [hl]; exact dfa_inside h) d.initialState (State.ofDfa s)
    (by rw [List.getElem?_map, hs]; rfl) ((h.init_flag _ s hs).2 rfl)
  rw [hl] at this
  unfold drawDfa
  rw [h1]
  exact this

/-- **C104** The size of the drawing of an NFA. -/
theorem C104_nfa (o : Options) (hr : o.Roomy) (ord : List GroupedArrow → List GroupedArrow) (ho : ∀ l, (ord l).Perm l) (n : Nfa) (h : n.WF) :
    ∃ ops levels, drawNfa o ord n = some ops ∧ Boxed o n.states.length (labelledPairs (nfaLabels n) n.states.length) levels ops := by
  obtain ⟨as, h1, h2⟩ := nfa_groups ord ho h
  obtain ⟨s, hs⟩ : ∃ s, n.states[n.initialState]? = some s := ⟨_, List.getElem?_eq_getElem h.init_lt⟩
  have hl : (n.states.map State.ofNfa).length = n.states.length := List.length_map ..
  have := draw_box hr (states := n.states.map State.ofNfa) h2 (by rw [hl]; exact nfa_inside h) n.initialState (State.ofNfa s)
    (by rw [List.getElem?_map, hs]; rfl) ((h.init_flag _ s hs).2 rfl)
  rw [hl] at this
  unfold drawNfa
  rw [h1]
  exact this

private theorem default_roomy : Options.default.Roomy := by
  constructor <;> (try constructor) <;> (try constructor) <;> decide +kernel

example : Options.default.Roomy := default_roomy
example : Options.default.width 3 = 290 ∧ Options.default.height 4 = 265 := by decide +kernel

/-! ## The canvas of the page -/

private theorem circle_item {ops : List Op} {p : Pos2} {r : Rat} (h : (p, r) ∈ circles ops) (c : Color) : ∃ w c', Item.circle p r w c' ∈ items c ops := by
  induction ops generalizing c with
  | nil => cases h
  | cons op ops ih =>
    cases op with
    | circle p' r' w =>
      rcases List.mem_cons.1 h with e | h
      · cases e
        exact ⟨w, c, List.mem_cons_self⟩
      · obtain ⟨w', c', h'⟩ := ih h c
        exact ⟨w', c', List.mem_cons_of_mem _ h'⟩
    | text p' t => obtain ⟨w', c', h'⟩ := ih h c; exact ⟨w', c', List.mem_cons_of_mem _ h'⟩
    | line a b t => obtain ⟨w', c', h'⟩ := ih h c; exact ⟨w', c', List.mem_cons_of_mem _ h'⟩
    | color c1 => exact ih h c1
    | start => exact ih h c
    | finish => exact ih h c

private theorem line_item {ops : List Op} {p q : Pos2} (h : HasLine ops p q) (c : Color) : ∃ w c', Item.line p q w c' ∈ items c ops := by
  obtain ⟨t, h0⟩ := h
  induction ops generalizing c with
  | nil => cases h0
  | cons op ops ih =>
    rcases List.mem_cons.1 h0 with rfl | h1
    · exact ⟨t, c, List.mem_cons_self⟩
    · cases op with
      | circle p' r' w => obtain ⟨w', c', h'⟩ := ih c h1; exact ⟨w', c', List.mem_cons_of_mem _ h'⟩
      | text p' t => obtain ⟨w', c', h'⟩ := ih c h1; exact ⟨w', c', List.mem_cons_of_mem _ h'⟩
      | line a b t => obtain ⟨w', c', h'⟩ := ih c h1; exact ⟨w', c', List.mem_cons_of_mem _ h'⟩
      | color c1 => exact ih c1 h1
      | start => exact ih c h1
      | finish => exact ih c h1

private theorem forall₂_of_left {α β : Type} {R : α → β → Prop} {as : List α} {bs : List β} (h : List.Forall₂ R as bs) :
    (∀ a ∈ as, ∃ b ∈ bs, R a b) ∧ ∀ b ∈ bs, ∃ a ∈ as, R a b := by
  induction h with
  | nil => simp
  | @cons a b as bs h _ ih =>
    constructor
    · intro x hx
      rcases List.mem_cons.1 hx with rfl | hx
      · exact ⟨b, List.mem_cons_self, h⟩
      · obtain ⟨y, h1, h2⟩ := ih.1 x hx
        exact ⟨y, List.mem_cons_of_mem _ h1, h2⟩
    · intro x hx
      rcases List.mem_cons.1 hx with rfl | hx
      · exact ⟨a, List.mem_cons_self, h⟩
      · obtain ⟨y, h1, h2⟩ := ih.2 x hx
        exact ⟨y, List.mem_cons_of_mem _ h1, h2⟩

private theorem recolor_in {a b : Pos2} {it : Item} (c : Color) (h : it.In a b) : (it.recolor c).In a b := by
  cases it <;> exact h

private theorem in_mono {a b b' : Pos2} {it : Item} (h : it.In a b) (hx : b.x ≤ b'.x) (hy : b.y ≤ b'.y) : it.In a b' := by
  have key : ∀ p, Pos2.In a b p → Pos2.In a b' p := fun p h => ⟨h.1, h.2.1.trans hx, h.2.2.1, h.2.2.2.trans hy⟩
  cases it with
  | circle c r w k => exact ⟨key _ h.1, key _ h.2⟩
  | line p q w k => exact ⟨key _ h.1, key _ h.2⟩
  | text p t k => exact key _ h

private theorem default_size (n levels : Nat) : Options.default.onCanvas 0 0 = ⟨0, 0⟩ ∧
    Options.default.onCanvas (Options.default.width n) (Options.default.height levels) = ⟨50 + 80 * n, 165 + 25 * levels⟩ := by
  constructor
  · decide +kernel
  · unfold Options.onCanvas Options.width Options.height Options.stateY Options.baseY Options.step Options.default
    dsimp only
    congr 1
    · ring
    · ring

private theorem text_nfa_unique {cl : Str → Nat} {t : Str} {n n' : Nfa} (h : Cli.IsTextOf cl t (.nfa n)) (h' : Cli.IsTextOf cl t (.nfa n')) : n = n' := by
  obtain ⟨p, h1, h2, h3⟩ := h
  obtain ⟨p', h1', _, h3'⟩ := h'
  have e := (fa_nfa_iff.2 h1).symm.trans (fa_nfa_iff.2 h1')
  cases e
  exact h3.unique h2 h3'

open Site in
/-- **C104** What a click on the button paints for an NFA with at most 8 states is on the canvas of 700 by 500 points, if no arrow has the right
ends of more than 13 arrows below it. If there are more states, or if more than 13 arrows pass between two neighbours, something is painted
outside the canvas. -/
theorem C104_page_partial (env : Site.Env) (hcl : Segmentation env.cl) (es : List Event) (hes : ∀ e ∈ es, e.Valid) (o : Orders)
    (ho : o.Valid) (p : Page) (hp : history env es = some p) (n : Nfa) (hn : Cli.IsTextOf env.cl (p.value .visualize) (.nfa n)) :
    ∃ q new, history env (.click .visualize o :: es) = some q ∧ q.canvas.painted = p.canvas.painted ++ new ∧
      (n.states.length ≤ 8 → (∀ a ∈ labelledPairs (nfaLabels n) n.states.length, under (labelledPairs (nfaLabels n) n.states.length) a ≤ 13) →
        ∀ x ∈ new, ∃ it, Canvas.Visible x it ∧ it.In ⟨0, 0⟩ ⟨700, 500⟩) ∧
      (8 < n.states.length ∨ (∃ k, 13 < over (labelledPairs (nfaLabels n) n.states.length) k) →
        ∃ x ∈ new, ∃ it, Canvas.Visible x it ∧ ¬ it.In ⟨0, 0⟩ ⟨700, 500⟩) := by
  obtain ⟨q, h1, _, h3, _⟩ := C74_visualize_partial env hcl es hes o ho p hp
  obtain ⟨_, n', ops, ps, again, it0, g1, g2, g3, g4, g5, g6, g7⟩ := h3 (Site.legal_nfa hn)
  cases text_nfa_unique hn g1
  obtain ⟨ops', levels, e1, e2, e3, e4, _, ⟨y, e6⟩, ⟨x, a, e7⟩⟩ := C104_nfa Options.default default_roomy o.draw ho.2 n g2
  rw [g3] at e1
  cases e1
  obtain ⟨s1, s2⟩ := default_size n.states.length levels
  obtain ⟨f1, f2⟩ := forall₂_of_left g5
  refine ⟨q, ps ++ [again], h1, by rw [g4, List.append_assoc], ?_, ?_⟩
  · intro hle hu
    have hl := e3 13 hu
    have hin : ∀ it ∈ items (0, 0, 0) ops, it.In ⟨0, 0⟩ ⟨700, 500⟩ := by
      intro it hit
      have := e4 (0, 0, 0) it hit
      rw [s1, s2] at this
      have c1 : (n.states.length : Rat) ≤ 8 := by exact_mod_cast hle
      have c2 : (levels : Rat) ≤ 13 := by exact_mod_cast hl
      refine in_mono this ?_ ?_
      · dsimp only
        linarith
      · dsimp only
        linarith
    intro z hz
    rcases List.mem_append.1 hz with hz | hz
    · obtain ⟨it, i1, i2⟩ := f1 z hz
      exact ⟨it, i2, hin it i1⟩
    · rw [List.mem_singleton] at hz
      subst hz
      have := List.mem_of_getLast? g6
      exact ⟨_, g7, recolor_in _ (hin it0 (List.mem_filter.1 this).1)⟩
  · rintro (h | ⟨k, h⟩)
    · obtain ⟨w, c, hm⟩ := circle_item e6 (0, 0, 0)
      obtain ⟨z, z1, z2⟩ := f2 _ hm
      refine ⟨z, List.mem_append_left _ z1, _, z2, ?_⟩
      rintro ⟨_, _, hx, _⟩
      have c1 : (9 : Rat) ≤ n.states.length := by exact_mod_cast h
      have ew : Options.default.width n.states.length = 50 + 80 * n.states.length := by
        unfold Options.width Options.step Options.default
        dsimp only
        ring
      simp only [Options.onCanvas, ew] at hx
      simp only [Options.default] at hx
      linarith
    · obtain ⟨w, c, hm⟩ := line_item e7 (0, 0, 0)
      obtain ⟨z, z1, z2⟩ := f2 _ hm
      refine ⟨z, List.mem_append_left _ z1, _, z2, ?_⟩
      rintro ⟨_, _, _, _, hy⟩
      have := e2 k
      have c1 : (14 : Rat) ≤ levels := by exact_mod_cast (by omega : 14 ≤ levels)
      have s3 := congrArg Pos2.y s2
      have : (Options.default.onCanvas x (Options.default.height levels)).y = 165 + 25 * levels := s3
      rw [this] at hy
      dsimp only at hy
      linarith

/-- An NFA with nine states in a row, as a text. -/
private def nineText : Str :=
  c!"ε a\n→ q0 {} {q1}\nq1 {} {q2}\nq2 {} {q3}\nq3 {} {q4}\nq4 {} {q5}\nq5 {} {q6}\nq6 {} {q7}\nq7 {} {q8}\n* q8 {} {}"

open Site in
/-- **C104** So the canvas does not show the whole NFA: of one with nine states, the name of the last one is written outside the canvas. -/
theorem C104_page_false : ∃ p, history browser [.click .visualize orders0, .edit .visualize nineText] = some p ∧
    p.label .visualize = c!"Visualize!" ∧
    ∃ x ∈ p.canvas.painted, ∃ pos color, Canvas.Visible x (.text pos c!"q8" color) ∧ ¬ Pos2.In ⟨0, 0⟩ ⟨700, 500⟩ pos := by
  have h : (history browser [.click .visualize orders0, .edit .visualize nineText]).map (fun p => (p.label .visualize,
        p.canvas.painted.any (fun x => match x with
          | .text pos s _ a b => s == c!"q8" && a == c!"center" && b == c!"middle" && decide (700 < pos.x)
          | _ => false))) = some (c!"Visualize!", true) := by decide +kernel
  obtain ⟨p, h1, h2⟩ := Option.map_eq_some_iff.1 h
  rw [Prod.mk.injEq] at h2
  obtain ⟨x, hx, h3⟩ := List.any_eq_true.1 h2.2
  refine ⟨p, h1, h2.1, x, hx, ?_⟩
  cases x with
  | stroke path w c => cases h3
  | text pos s c a b =>
    simp only [Bool.and_eq_true, beq_iff_eq, decide_eq_true_eq] at h3
    obtain ⟨⟨⟨rfl, rfl⟩, rfl⟩, h4⟩ := h3
    exact ⟨pos, c, .text, fun hin => absurd hin.2.1 (not_le.2 h4)⟩

open Site in
/-- The NFA that the page shows first has room on the canvas. -/
example : ∃ q new, history browser [.click .visualize orders0] = some q ∧ q.canvas.painted = start.canvas.painted ++ new ∧
    ∀ x ∈ new, ∃ it, Canvas.Visible x it ∧ it.In ⟨0, 0⟩ ⟨700, 500⟩ := by
  have h : (match Cli.Automata.load browser.cl (start.value .visualize) .nfa with
      | .ok (.nfa n) => decide (n.states.length = 6 ∧ (labelledPairs (nfaLabels n) n.states.length).length = 14 ∧
          ∀ a ∈ labelledPairs (nfaLabels n) n.states.length, under (labelledPairs (nfaLabels n) n.states.length) a ≤ 13)
      | _ => false) = true := by decide +kernel
  split at h
  · rename_i n hn
    have hd := of_decide_eq_true h
    obtain ⟨q, new, h1, h2, h3, _⟩ := C104_page_partial browser cl1_seg [] nofun orders0 orders0_valid start rfl n
      (C61_load_content browser.cl cl1_seg _ _ _ hn).2.2.1
    exact ⟨q, new, h1, h2, h3 (by omega) hd.2.2⟩
  · cases h

/-! ## Instances of the theorems of this file -/

example := C104_dfa Options.default default_roomy List.reverse (fun l => List.reverse_perm l) Samples.endsB Samples.endsB_wf

end Dandy
