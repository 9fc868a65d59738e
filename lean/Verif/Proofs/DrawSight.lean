import Verif.Proofs.DrawDecode
import Verif.Proofs.Backends
/-! # Reading drawings back (for C87) -/

namespace Dandy
namespace Draw

variable {o : Options}

/-- What is known about a drawing. -/
structure Drawing (o : Options) (ls : Nat → Nat → List Str) (states : List State) (placed : List (PlacedArrow GroupedArrow)) (levels : Nat)
    (ops : List Op) : Prop where
  drawn : DrawnOn o states placed levels ops
  lines : lines ops = o.leftArrow levels ++ states.zipIdx.flatMap (fun x => if x.1.initial then o.mark levels x.2 else []) ++
    placed.flatMap (o.arrow levels)
  groups : ∃ gs, Groups ls gs ∧ Placement GroupedArrow.left GroupedArrow.right gs placed levels
  states : 0 < states.length

theorem onCanvas_inj (hs : o.Sensible) {x y x' y' : Rat} (h : o.onCanvas x y = o.onCanvas x' y') : x = x' ∧ y = y' := by
  unfold Options.onCanvas at h
  injection h with h1 h2
  exact ⟨add_right_cancel (mul_right_cancel₀ hs.scaleX h1), add_right_cancel (mul_right_cancel₀ hs.scaleY h2)⟩

theorem hasLine_iff (ops : List Op) (a b : Pos2) : HasLine ops a b ↔ ∃ w, (a, b, w) ∈ lines ops := by
  unfold HasLine Draw.lines
  constructor
  · rintro ⟨t, h⟩
    exact ⟨t, List.mem_filterMap.2 ⟨_, h, rfl⟩⟩
  · rintro ⟨w, h⟩
    obtain ⟨op, h1, h2⟩ := List.mem_filterMap.1 h
    cases op <;> simp at h2
    obtain ⟨rfl, rfl, rfl⟩ := h2
    exact ⟨_, h1⟩

theorem stateY_inj (hs : o.Sensible) {l l' : Nat} (h : o.stateY l = o.stateY l') : l = l' := by
  unfold Options.stateY Options.baseY at h
  have h1 : ((l : Rat) + 1) * o.floorHeight = ((l' : Rat) + 1) * o.floorHeight := by linarith
  have h2 := mul_right_cancel₀ hs.floor.ne' h1
  have : (l : Rat) = (l' : Rat) := by linarith
  exact_mod_cast this

theorem base_lt (hs : o.Sensible) (l : Nat) : o.baseY l < o.stateY l := by
  have := hs.margin
  have := hs.radius
  unfold Options.stateY
  linarith

theorem placement_apart {gs : List GroupedArrow} {placed : List (PlacedArrow GroupedArrow)} {levels : Nat}
    (hp : Placement GroupedArrow.left GroupedArrow.right gs placed levels) {p q : PlacedArrow GroupedArrow} (h : p ∈ placed) (h' : q ∈ placed)
    (hl : p.level = q.level) (hne : p ≠ q) :
    Before p.arrow.left p.arrow.right q.arrow.left q.arrow.right ∨ Before q.arrow.left q.arrow.right p.arrow.left p.arrow.right := by
  obtain ⟨i, hi1, hi2⟩ := List.getElem_of_mem h
  obtain ⟨j, hj1, hj2⟩ := List.getElem_of_mem h'
  rcases Nat.lt_trichotomy i j with hij | hij | hij
  · left
    have := List.pairwise_iff_getElem.1 hp.apart i j hi1 hj1 hij
    rw [hi2, hj2] at this
    exact this hl
  · subst hij
    rw [hi2] at hj2
    exact absurd hj2 hne
  · right
    have := List.pairwise_iff_getElem.1 hp.apart j i hj1 hi1 hij
    rw [hi2, hj2] at this
    exact this hl.symm

/-- The middle of an arrow. -/
def Options.mid (o : Options) (g : GroupedArrow) : Rat := (o.leftEnd g + o.rightEnd g) / 2

theorem mid_eq (hs : o.Sensible) {g g' : GroupedArrow} (h : o.mid g = o.mid g') : g.left + g.right = g'.left + g'.right := by
  unfold Options.mid Options.leftEnd Options.rightEnd Options.stateX at h
  have h1 : o.step * ((g.left : Rat) + g.right) = o.step * ((g'.left : Rat) + g'.right) := by linarith
  have h2 := mul_left_cancel₀ (step_pos hs).ne' h1
  exact_mod_cast h2

section one
variable {ls : Nat → Nat → List Str} {states : List State} {placed : List (PlacedArrow GroupedArrow)} {levels : Nat} {ops : List Op}

theorem Drawing.oriented (h : Drawing o ls states placed levels ops) {p : PlacedArrow GroupedArrow} (hp : p ∈ placed) : p.arrow.Oriented := by
  obtain ⟨gs, h1, h2⟩ := h.groups
  exact h1.oriented _ (h2.each.mem_iff.1 (List.mem_map.2 ⟨p, hp, rfl⟩))

theorem Drawing.unique (hs : o.Sensible) (h : Drawing o ls states placed levels ops) {p q : PlacedArrow GroupedArrow} (hp : p ∈ placed)
    (hq : q ∈ placed) (hl : p.level = q.level) (hm : o.mid p.arrow = o.mid q.arrow) : p = q := by
  by_contra hne
  obtain ⟨gs, h1, h2⟩ := h.groups
  have e := mid_eq hs hm
  have o1 := Oriented.le (h.oriented hp)
  have o2 := Oriented.le (h.oriented hq)
  rcases placement_apart h2 hp hq hl hne with ⟨b1, b2⟩ | ⟨b1, b2⟩
  · have : p.arrow.left = p.arrow.right := by omega
    have := b2 this
    omega
  · have : q.arrow.left = q.arrow.right := by omega
    have := b2 this
    omega

/-- A line that starts above the states belongs to an arrow. -/
theorem Drawing.line (ht : o.Telling) (h : Drawing o ls states placed levels ops) {x y x' y' w : Rat}
    (hm : (o.onCanvas x y, o.onCanvas x' y', w) ∈ Draw.lines ops) (hy : y < o.baseY levels) :
    ∃ q ∈ placed, y = o.levelY levels q.level ∧ ((x = o.leftEnd q.arrow ∧ x' = o.rightEnd q.arrow ∧ y' = y) ∨
      (x = o.mid q.arrow + q.arrow.side * o.transArrowArmsLength / 2 ∧ x' = x - q.arrow.side * o.transArrowArmsLength ∧
        (y' = y + o.transArrowArmsLength ∨ y' = y - o.transArrowArmsLength))) := by
  have hs := ht.sensible
  have hb := base_lt hs levels
  have hr := hs.radius
  have hpd := hs.padding
  rw [h.lines, List.mem_append, List.mem_append] at hm
  rcases hm with (hm | hm) | hm
  · exfalso
    simp only [Options.leftArrow, Options.tip, List.mem_cons, Prod.mk.injEq, List.not_mem_nil, or_false] at hm
    rcases hm with ⟨h1, _⟩ | ⟨h1, _⟩ | ⟨h1, _⟩ <;> have := (onCanvas_inj hs h1).2 <;> linarith
  · exfalso
    obtain ⟨z, _, hz⟩ := List.mem_flatMap.1 hm
    split at hz
    · simp only [Options.mark, Options.tip, List.mem_cons, Prod.mk.injEq, List.not_mem_nil, or_false] at hz
      rcases hz with ⟨h1, _⟩ | ⟨h1, _⟩ | ⟨h1, _⟩ <;> have := (onCanvas_inj hs h1).2 <;> linarith
    · cases hz
  · obtain ⟨q, hq, hz⟩ := List.mem_flatMap.1 hm
    refine ⟨q, hq, ?_⟩
    simp only [Options.arrow, ht.middle, if_true, List.mem_append, List.mem_cons, Prod.mk.injEq, List.not_mem_nil, or_false, Options.tip] at hz
    rcases hz with (hz | hz) | hz
    · rcases hz with ⟨h1, _⟩ | ⟨h1, _⟩ | ⟨h1, h2, _⟩
      · have := (onCanvas_inj hs h1).2; linarith
      · have := (onCanvas_inj hs h1).2; linarith
      · obtain ⟨e1, e2⟩ := onCanvas_inj hs h1
        obtain ⟨e3, e4⟩ := onCanvas_inj hs h2
        exact ⟨e2, Or.inl ⟨e1, e3, by rw [e4, e2]⟩⟩
    · rcases hz with ⟨h1, h2, _⟩ | ⟨h1, h2, _⟩
      · obtain ⟨e1, e2⟩ := onCanvas_inj hs h1
        obtain ⟨e3, e4⟩ := onCanvas_inj hs h2
        exact ⟨e2, Or.inr ⟨e1, by rw [e3, e1]; ring, Or.inl (by rw [e4, e2])⟩⟩
      · obtain ⟨e1, e2⟩ := onCanvas_inj hs h1
        obtain ⟨e3, e4⟩ := onCanvas_inj hs h2
        exact ⟨e2, Or.inr ⟨e1, by rw [e3, e1]; ring, Or.inr (by rw [e4, e2]; ring)⟩⟩
    · exfalso
      split at hz
      · simp only [List.mem_cons, Prod.mk.injEq, List.not_mem_nil, or_false] at hz
        rcases hz with ⟨h1, _⟩ | ⟨h1, _⟩ <;> have := (onCanvas_inj hs h1).2 <;> linarith
      · cases hz

/-- A text above the states is a label. -/
theorem Drawing.label (ht : o.Telling) (h : Drawing o ls states placed levels ops) {x y : Rat} {t : Str}
    (hm : (o.onCanvas x y, t) ∈ Draw.texts ops) (hy : y < o.baseY levels) :
    ∃ q ∈ placed, y = o.levelY levels q.level - o.textMargin ∧ x = o.mid q.arrow ∧ t = q.arrow.written := by
  have hs := ht.sensible
  have hb := base_lt hs levels
  rw [h.drawn.texts, List.mem_append] at hm
  rcases hm with hm | hm
  · obtain ⟨z, _, hz⟩ := List.mem_map.1 hm
    have := (onCanvas_inj hs (Prod.mk.inj hz).1).2
    linarith
  · obtain ⟨q, hq, hz⟩ := List.mem_map.1 hm
    obtain ⟨e1, e2⟩ := Prod.mk.inj hz
    obtain ⟨e3, e4⟩ := onCanvas_inj hs e1
    exact ⟨q, hq, e4.symm, e3.symm, e2.symm⟩

/-- A text at the height of the states is a name. -/
theorem Drawing.name (ht : o.Telling) (h : Drawing o ls states placed levels ops) {i : Nat} {t : Str}
    (hm : (o.onCanvas (o.stateX i) (o.stateY levels), t) ∈ Draw.texts ops) : ∃ s, states[i]? = some s ∧ t = s.name := by
  have hs := ht.sensible
  have hb := base_lt hs levels
  rw [h.drawn.texts, List.mem_append] at hm
  rcases hm with hm | hm
  · obtain ⟨⟨s, j⟩, hz1, hz⟩ := List.mem_map.1 hm
    rw [List.mem_zipIdx_iff_getElem?] at hz1
    obtain ⟨e1, e2⟩ := Prod.mk.inj hz
    have := stateX_inj hs (onCanvas_inj hs e1).1
    dsimp only at this hz1 e2
    subst this
    exact ⟨s, hz1, e2.symm⟩
  · obtain ⟨q, hq, hz⟩ := List.mem_map.1 hm
    have := (onCanvas_inj hs (Prod.mk.inj hz).1).2
    have := (h.drawn.above q hq).2
    have := ht.margin
    linarith

/-- The circles. -/
theorem Drawing.circle (ht : o.Telling) (h : Drawing o ls states placed levels ops) {i l : Nat} {r : Rat}
    (hm : (o.onCanvas (o.stateX i) (o.stateY l), r * o.xScale) ∈ Draw.circles ops) :
    l = levels ∧ ∃ s, states[i]? = some s ∧ (r = o.circleRadius ∨ r = o.acceptingCircleRadius ∧ s.accepting = true) := by
  have hs := ht.sensible
  rw [h.drawn.circles] at hm
  obtain ⟨⟨s, j⟩, hz1, hz⟩ := List.mem_flatMap.1 hm
  rw [List.mem_zipIdx_iff_getElem?] at hz1
  dsimp only at hz1 hz
  rcases List.mem_cons.1 hz with hz | hz
  · obtain ⟨e1, e2⟩ := Prod.mk.inj hz
    obtain ⟨e3, e4⟩ := onCanvas_inj hs e1
    have := stateX_inj hs e3
    subst this
    exact ⟨stateY_inj hs e4, s, hz1, Or.inl (mul_right_cancel₀ hs.scaleX e2)⟩
  · split at hz
    · rename_i ha
      obtain ⟨e1, e2⟩ := Prod.mk.inj (List.mem_singleton.1 hz)
      obtain ⟨e3, e4⟩ := onCanvas_inj hs e1
      have := stateX_inj hs e3
      subst this
      exact ⟨stateY_inj hs e4, s, hz1, Or.inr ⟨mul_right_cancel₀ hs.scaleX e2, ha⟩⟩
    · cases hz

theorem Drawing.has_circle (h : Drawing o ls states placed levels ops) {i : Nat} {s : State} (hi : states[i]? = some s) :
    (o.onCanvas (o.stateX i) (o.stateY levels), o.circleRadius * o.xScale) ∈ Draw.circles ops ∧
    (s.accepting = true → (o.onCanvas (o.stateX i) (o.stateY levels), o.acceptingCircleRadius * o.xScale) ∈ Draw.circles ops) := by
  rw [h.drawn.circles]
  have hm : (s, i) ∈ states.zipIdx := by rw [List.mem_zipIdx_iff_getElem?]; exact hi
  refine ⟨List.mem_flatMap.2 ⟨_, hm, List.mem_cons_self⟩, fun ha => List.mem_flatMap.2 ⟨_, hm, List.mem_cons_of_mem _ ?_⟩⟩
  dsimp only
  rw [if_pos ha]
  exact List.mem_singleton.2 rfl

theorem Drawing.has_name (h : Drawing o ls states placed levels ops) {i : Nat} {s : State} (hi : states[i]? = some s) :
    (o.onCanvas (o.stateX i) (o.stateY levels), s.name) ∈ Draw.texts ops := by
  rw [h.drawn.texts]
  have hm : (s, i) ∈ states.zipIdx := by rw [List.mem_zipIdx_iff_getElem?]; exact hi
  exact List.mem_append_left _ (List.mem_map.2 ⟨_, hm, rfl⟩)

end one

section two
variable {ls ls' : Nat → Nat → List Str} {states states' : List State} {P P' : List (PlacedArrow GroupedArrow)} {levels levels' : Nat}
  {ops ops' : List Op}

theorem sight_levels (ht : o.Telling) (h : Drawing o ls states P levels ops) (h' : Drawing o ls' states' P' levels' ops')
    (he : SameSight ops ops') : levels = levels' := by
  have h0 := List.getElem?_eq_getElem h.states
  exact (h'.circle ht ((he.1 _).1 (h.has_circle h0).1)).1

theorem sight_state (ht : o.Telling) (h : Drawing o ls states P levels ops) (h' : Drawing o ls' states' P' levels ops')
    (he : SameSight ops ops') {i : Nat} {s : State} (hi : states[i]? = some s) :
    ∃ s', states'[i]? = some s' ∧ s.name = s'.name ∧ (s.accepting = true → s'.accepting = true) ∧ (s.initial = true ↔ s'.initial = true) := by
  obtain ⟨s', h1, h2⟩ := h'.name ht ((he.2.1 _).1 (h.has_name hi))
  refine ⟨s', h1, h2, fun ha => ?_, ?_⟩
  · obtain ⟨_, s2, h3, h4⟩ := h'.circle ht ((he.1 _).1 ((h.has_circle hi).2 ha))
    rw [h1] at h3
    cases h3
    rcases h4 with h4 | h4
    · exact absurd h4 ht.accepting
    · exact h4.2
  · rw [← h.drawn.initial i s hi, ← h'.drawn.initial i s' h1]
    unfold Marked
    rw [hasLine_iff, hasLine_iff]
    exact exists_congr fun w => he.2.2 _

theorem sight_arrow (ht : o.Telling) (h : Drawing o ls states P levels ops) (h' : Drawing o ls' states' P' levels ops')
    (he : SameSight ops ops') {p : PlacedArrow GroupedArrow} (hp : p ∈ P) :
    ∃ q ∈ P', Alike p.arrow q.arrow ∧ p.arrow.written = q.arrow.written := by
  have hs := ht.sensible
  have ha := ht.arms
  have hy := (h.drawn.above p hp).2
  have horiz : (o.onCanvas (o.leftEnd p.arrow) (o.levelY levels p.level), o.onCanvas (o.rightEnd p.arrow) (o.levelY levels p.level), o.transLineWidth) ∈ lines ops := by
    rw [h.lines]
    refine List.mem_append_right _ (List.mem_flatMap.2 ⟨p, hp, ?_⟩)
    simp [Options.arrow]
  have tip : (o.onCanvas (o.mid p.arrow + p.arrow.side * o.transArrowArmsLength / 2) (o.levelY levels p.level),
      o.onCanvas (o.mid p.arrow + p.arrow.side * o.transArrowArmsLength / 2 + -(p.arrow.side * o.transArrowArmsLength))
        (o.levelY levels p.level + o.transArrowArmsLength), o.transLineWidth) ∈ lines ops := by
    rw [h.lines]
    refine List.mem_append_right _ (List.mem_flatMap.2 ⟨p, hp, ?_⟩)
    simp [Options.arrow, ht.middle, Options.tip, Options.mid]
  have txt : (o.onCanvas (o.mid p.arrow) (o.levelY levels p.level - o.textMargin), p.arrow.written) ∈ texts ops := by
    rw [h.drawn.texts]
    exact List.mem_append_right _ (List.mem_map.2 ⟨p, hp, rfl⟩)
  obtain ⟨q, hq, e1, e2⟩ := h'.line ht ((he.2.2 _).1 horiz) hy
  obtain ⟨q2, hq2, f1, f2⟩ := h'.line ht ((he.2.2 _).1 tip) hy
  obtain ⟨q3, hq3, g1, g2, g3⟩ := h'.label ht ((he.2.1 _).1 txt) (by have := ht.margin; linarith)
  have hlr : p.arrow.left = q.arrow.left ∧ p.arrow.right = q.arrow.right := by
    rcases e2 with ⟨e2, e3, _⟩ | ⟨_, _, e2⟩
    · unfold Options.leftEnd at e2
      unfold Options.rightEnd at e3
      exact ⟨stateX_inj hs (by linarith), stateX_inj hs (by linarith)⟩
    · rcases e2 with e2 | e2 <;> exact absurd (by linarith) ha
  have hmid : o.mid p.arrow = o.mid q.arrow := by
    unfold Options.mid Options.leftEnd Options.rightEnd
    rw [hlr.1, hlr.2]
  have hl1 := levelY_inj hs e1
  have hl2 := levelY_inj hs f1
  have hl3 : p.level = q3.level := levelY_inj (levels := levels) hs (by linarith)
  obtain ⟨m2, s2⟩ : o.mid p.arrow = o.mid q2.arrow ∧ p.arrow.side = q2.arrow.side := by
    rcases f2 with ⟨_, _, f2⟩ | ⟨f2, f3, _⟩
    · exact absurd (by linarith) ha
    · have k : p.arrow.side * o.transArrowArmsLength = q2.arrow.side * o.transArrowArmsLength := by linarith
      exact ⟨by rw [k] at f2; linarith, mul_right_cancel₀ ha k⟩
  obtain rfl := h'.unique hs hq hq2 (by omega) (by rw [← hmid, m2])
  obtain rfl := h'.unique hs hq hq3 (by omega) (by rw [← hmid, g2])
  refine ⟨q, hq, ⟨hlr.1, hlr.2, ?_⟩, g3⟩
  have o1 := h.oriented hp
  have o2 := h'.oriented hq
  unfold GroupedArrow.Oriented at o1 o2
  unfold GroupedArrow.side GroupedArrow.source GroupedArrow.target at s2
  cases hd : p.arrow.direction <;> cases hd' : q.arrow.direction <;> rw [hd] at o1 s2 <;> rw [hd'] at o2 s2 <;> dsimp only at o1 o2 <;>
    (try simp only [reduceCtorEq, ↓reduceIte] at s2) <;>
    first
      | rfl
      | omega
      | (rw [if_pos (by omega), if_neg (by omega)] at s2; exact absurd s2 (by decide +kernel))
      | (rw [if_neg (by omega), if_pos (by omega)] at s2; exact absurd s2 (by decide +kernel))

/-- The drawing determines states and labels. -/
theorem sight (ht : o.Telling) (h : Drawing o ls states P levels ops) (h' : Drawing o ls' states' P' levels' ops')
    (hb : ∀ i j, ∀ e ∈ ls i j, ' ' ∉ e) (hb' : ∀ i j, ∀ e ∈ ls' i j, ' ' ∉ e) (he : SameSight ops ops') :
    states.map (fun s => (s.name, s.accepting, s.initial)) = states'.map (fun s => (s.name, s.accepting, s.initial)) ∧
    ∀ i j, ls i j = ls' i j := by
  obtain rfl := sight_levels ht h h' he
  have he' : SameSight ops' ops := ⟨fun x => (he.1 x).symm, fun x => (he.2.1 x).symm, fun x => (he.2.2 x).symm⟩
  constructor
  · apply List.ext_getElem?
    intro i
    rw [List.getElem?_map, List.getElem?_map]
    cases h1 : states[i]? with
    | none =>
      cases h2 : states'[i]? with
      | none => rfl
      | some s' =>
        obtain ⟨s, h3, _⟩ := sight_state ht h' h he' h2
        rw [h1] at h3
        cases h3
    | some s =>
      obtain ⟨s', h2, h3, h4, h5⟩ := sight_state ht h h' he h1
      obtain ⟨s2, k2, k3, k4, k5⟩ := sight_state ht h' h he' h2
      rw [h1] at k2
      cases k2
      rw [h2, Option.map_some, Option.map_some, h3, Bool.eq_iff_iff.2 h5, Bool.eq_iff_iff.2 ⟨h4, k4⟩]
  · have key : ∀ {ls ls' : Nat → Nat → List Str} {states states' : List State} {P P' : List (PlacedArrow GroupedArrow)} {ops ops' : List Op},
        Drawing o ls states P levels ops → Drawing o ls' states' P' levels ops' → (∀ i j, ∀ e ∈ ls i j, ' ' ∉ e) →
        (∀ i j, ∀ e ∈ ls' i j, ' ' ∉ e) → SameSight ops ops' → ∀ i j, ls i j ≠ [] → ls i j = ls' i j := by
      intro ls ls' states states' P P' ops ops' h h' hb hb' he i j hne
      obtain ⟨gs, g1, g2⟩ := h.groups
      obtain ⟨gs', g1', g2'⟩ := h'.groups
      obtain ⟨g, hgm, hi, hj⟩ := g1.all i j hne
      obtain ⟨p, hpm, rfl⟩ := List.mem_map.1 (g2.each.mem_iff.2 hgm)
      obtain ⟨q, hq, ha, hw⟩ := sight_arrow ht h h' he hpm
      have hm' : q.arrow ∈ gs' := g2'.each.mem_iff.1 (List.mem_map.2 ⟨q, hq, rfl⟩)
      have hsrc : q.arrow.source = i := by
        rw [← hi]; unfold GroupedArrow.source; rw [ha.1, ha.2.1, ha.2.2]
      have htgt : q.arrow.target = j := by
        rw [← hj]; unfold GroupedArrow.target; rw [ha.1, ha.2.1, ha.2.2]
      obtain ⟨k1, k2⟩ := g1'.labels _ hm'
      obtain ⟨k3, k4⟩ := g1.labels _ hgm
      rw [hsrc, htgt] at k1
      rw [hi, hj] at k3
      rw [← k1, ← k3]
      exact intercalate_inj (c := ' ') (p := [',']) (r := []) (by decide) k4 k2 (by rw [k3]; exact hb i j) (by rw [k1]; exact hb' i j) hw
    intro i j
    by_cases h1 : ls i j = []
    · by_cases h2 : ls' i j = []
      · rw [h1, h2]
      · exact (key h' h hb' hb he' i j h2).symm
    · exact key h h' hb hb' he i j h1

end two

end Draw
end Dandy
