import Verif.Props.Draw
/-!
# C66: drawings with the default sizes
-/

namespace Dandy
open Draw

/-- Every two circles are either around the same point, the second well inside of the first, or have some room between them. -/
def Draw.CirclesApart (cs : List (Pos2 × Rat)) : Prop :=
  (∀ c ∈ cs, 0 < c.2) ∧
  cs.Pairwise (fun a b => (a.1 = b.1 ∧ b.2 + 4 < a.2) ∨ (a.1.y = b.1.y ∧ a.2 + b.2 + 4 < b.1.x - a.1.x))

private theorem zipIdx_pairwise {α : Type} (l : List α) : l.zipIdx.Pairwise (fun a b => a.2 < b.2) := by
  rw [List.pairwise_iff_getElem]
  intro i j hi hj h
  simpa using h

private theorem default_circles {states : List Draw.State} {placed : List (PlacedArrow GroupedArrow)} {levels : Nat} {ops : List Op}
    (h : DrawnOn Options.default states placed levels ops) :
    CirclesApart (circles ops) ∧ ∃ centre : Nat → Pos2, (∀ i j, centre i = centre j → i = j) ∧
      (∀ c ∈ circles ops, ∃ i < states.length, c.1 = centre i) ∧
      ∀ i st, states[i]? = some st → (centre i, st.name) ∈ texts ops ∧
        (circles ops).countP (fun c => c.1 = centre i) = if st.accepting then 2 else 1 := by
  have hx : ∀ i : Nat, Options.default.onCanvas (Options.default.stateX i) (Options.default.stateY levels) =
      ⟨100 + 80 * (i : Rat), Options.default.stateY levels⟩ := by
    intro i
    simp only [Options.onCanvas, Options.stateX, Options.step, Options.default]
    congr 1 <;> ring
  have hinj : ∀ i j : Nat, (⟨100 + 80 * (i : Rat), Options.default.stateY levels⟩ : Pos2) = ⟨100 + 80 * (j : Rat), Options.default.stateY levels⟩ →
      i = j := by
    intro i j e
    have := congrArg Pos2.x e
    simp only [add_right_inj, mul_eq_mul_left_iff] at this
    rcases this with h | h
    · exact_mod_cast h
    · norm_num at h
  have hc := h.circles
  have ht := h.texts
  simp only [hx] at hc ht
  have hr : Options.default.circleRadius * Options.default.xScale = 30 := by decide +kernel
  have hr' : Options.default.acceptingCircleRadius * Options.default.xScale = 25 := by decide +kernel
  rw [hr, hr'] at hc
  refine ⟨⟨?_, ?_⟩, fun i => ⟨100 + 80 * (i : Rat), Options.default.stateY levels⟩, hinj, ?_, ?_⟩
  · rw [hc]
    intro c hm
    obtain ⟨x, _, hx⟩ := List.mem_flatMap.1 hm
    rcases List.mem_cons.1 hx with rfl | hx
    · norm_num
    · split at hx
      · rw [List.mem_singleton] at hx
        subst hx
        norm_num
      · cases hx
  · rw [hc, List.pairwise_flatMap]
    constructor
    · intro x _
      by_cases ha : x.1.accepting = true
      · rw [if_pos ha, List.pairwise_pair]
        left
        exact ⟨rfl, by norm_num⟩
      · rw [if_neg ha]
        exact List.pairwise_singleton _ _
    · refine (zipIdx_pairwise states).imp ?_
      intro a b hab x hx y hy
      right
      have key : ∀ (c : Draw.State × Nat) (z : Pos2 × Rat), z ∈ (((⟨100 + 80 * (c.2 : Rat), Options.default.stateY levels⟩ : Pos2), (30 : Rat)) ::
          if c.1.accepting then [((⟨100 + 80 * (c.2 : Rat), Options.default.stateY levels⟩ : Pos2), (25 : Rat))] else []) →
          z.1 = ⟨100 + 80 * (c.2 : Rat), Options.default.stateY levels⟩ ∧ z.2 ≤ 30 := by
        intro c z hz
        rcases List.mem_cons.1 hz with rfl | hz
        · exact ⟨rfl, le_refl _⟩
        · split at hz
          · rw [List.mem_singleton] at hz
            subst hz
            exact ⟨rfl, by norm_num⟩
          · cases hz
      obtain ⟨e1, e2⟩ := key a x hx
      obtain ⟨e3, e4⟩ := key b y hy
      rw [e1, e3]
      have hab' : (a.2 : Rat) + 1 ≤ (b.2 : Rat) := by exact_mod_cast hab
      refine ⟨rfl, ?_⟩
      dsimp only
      linarith
  · rw [hc]
    intro c hm
    obtain ⟨x, hxm, hx⟩ := List.mem_flatMap.1 hm
    refine ⟨x.2, ?_, ?_⟩
    · obtain ⟨_, h2, _⟩ := List.mem_zipIdx (x := x.1) (i := x.2) hxm
      omega
    · rcases List.mem_cons.1 hx with rfl | hx
      · rfl
      · split at hx
        · rw [List.mem_singleton] at hx
          subst hx
          rfl
        · cases hx
  · intro i st hi
    constructor
    · rw [ht]
      refine List.mem_append_left _ (List.mem_map.2 ⟨(st, i), ?_, rfl⟩)
      rw [List.mem_zipIdx_iff_getElem?]
      exact hi
    · rw [hc]
      have gen : ∀ (l : List Draw.State) (k : Nat) (hk : k ≤ i), l[i - k]? = some st →
          ((l.zipIdx k).flatMap (fun x => ((⟨100 + 80 * (x.2 : Rat), Options.default.stateY levels⟩ : Pos2), (30 : Rat)) ::
            if x.1.accepting then [((⟨100 + 80 * (x.2 : Rat), Options.default.stateY levels⟩ : Pos2), (25 : Rat))] else [])).countP
              (fun c => c.1 = ⟨100 + 80 * (i : Rat), Options.default.stateY levels⟩) = if st.accepting then 2 else 1 := by
        have zero : ∀ (l : List Draw.State) (k : Nat), i < k →
          ((l.zipIdx k).flatMap (fun x => ((⟨100 + 80 * (x.2 : Rat), Options.default.stateY levels⟩ : Pos2), (30 : Rat)) ::
            if x.1.accepting then [((⟨100 + 80 * (x.2 : Rat), Options.default.stateY levels⟩ : Pos2), (25 : Rat))] else [])).countP
              (fun c => c.1 = ⟨100 + 80 * (i : Rat), Options.default.stateY levels⟩) = 0 := by
          intro l k hk
          rw [List.countP_eq_zero]
          intro c hm he
          obtain ⟨x, hxm, hx⟩ := List.mem_flatMap.1 hm
          obtain ⟨h1, _, _⟩ := List.mem_zipIdx (x := x.1) (i := x.2) hxm
          have e : c.1 = ⟨100 + 80 * (x.2 : Rat), Options.default.stateY levels⟩ := by
            rcases List.mem_cons.1 hx with rfl | hx
            · rfl
            · split at hx
              · rw [List.mem_singleton] at hx
                subst hx
                rfl
              · cases hx
          have he' : c.1 = ⟨100 + 80 * (i : Rat), Options.default.stateY levels⟩ := by simpa using he
          have := hinj _ _ (e.symm.trans he')
          omega
        intro l
        induction l with
        | nil => intro k _ h; cases h
        | cons a l ih =>
          intro k hk he
          rw [List.zipIdx_cons, List.flatMap_cons, List.countP_append]
          by_cases e : k = i
          · subst e
            rw [Nat.sub_self, List.getElem?_cons_zero] at he
            cases he
            rw [zero l (k + 1) (by omega)]
            by_cases ha : st.accepting = true
            · simp [ha]
            · simp [ha]
          · rw [ih (k + 1) (by omega) (by
              rw [show i - k = (i - (k + 1)) + 1 by omega, List.getElem?_cons_succ] at he
              exact he)]
            have : ¬ (⟨100 + 80 * (k : Rat), Options.default.stateY levels⟩ : Pos2) = ⟨100 + 80 * (i : Rat), Options.default.stateY levels⟩ :=
              fun h => e (hinj _ _ h)
            by_cases ha : a.accepting = true
            · simp [ha, this]
            · simp [ha, this]
      exact gen states 0 (Nat.zero_le _) hi

/-- **C66** With the default sizes (`draw_dfa`) every state has its own place with its name, at which there is one circle, or two if it is accepting,
the one well inside of the other; circles of different states are apart; and there are no other circles. -/
theorem C66_dfa_default (ord : List GroupedArrow → List GroupedArrow) (ho : ∀ l, (ord l).Perm l) (d : Dfa) (h : d.WF) :
    ∃ ops, drawDfa Options.default ord d = some ops ∧ CirclesApart (circles ops) ∧ ∃ centre : Nat → Pos2, (∀ i j, centre i = centre j → i = j) ∧
      (∀ c ∈ circles ops, ∃ i < d.states.length, c.1 = centre i) ∧
      ∀ i st, d.states[i]? = some st → (centre i, st.name) ∈ texts ops ∧
        (circles ops).countP (fun c => c.1 = centre i) = if st.accepting then 2 else 1 := by
  obtain ⟨ops, _, _, _, h1, _, _, h2⟩ := C66_dfa Options.default default_sensible ord ho d h
  obtain ⟨h3, centre, h4, h5, h6⟩ := default_circles h2
  refine ⟨ops, h1, h3, centre, h4, by simpa using h5, ?_⟩
  intro i st hi
  exact h6 i (dfaState st) (by rw [List.getElem?_map, hi]; rfl)

/-- **C66** The same for `draw_nfa`. -/
theorem C66_nfa_default (ord : List GroupedArrow → List GroupedArrow) (ho : ∀ l, (ord l).Perm l) (n : Nfa) (h : n.WF) :
    ∃ ops, drawNfa Options.default ord n = some ops ∧ CirclesApart (circles ops) ∧ ∃ centre : Nat → Pos2, (∀ i j, centre i = centre j → i = j) ∧
      (∀ c ∈ circles ops, ∃ i < n.states.length, c.1 = centre i) ∧
      ∀ i st, n.states[i]? = some st → (centre i, st.name) ∈ texts ops ∧
        (circles ops).countP (fun c => c.1 = centre i) = if st.accepting then 2 else 1 := by
  obtain ⟨ops, _, _, _, h1, _, _, h2⟩ := C66_nfa Options.default default_sensible ord ho n h
  obtain ⟨h3, centre, h4, h5, h6⟩ := default_circles h2
  refine ⟨ops, h1, h3, centre, h4, by simpa using h5, ?_⟩
  intro i st hi
  exact h6 i (nfaState st) (by rw [List.getElem?_map, hi]; rfl)

example : Samples.endsB.WF ∧ ((drawDfa Options.default List.reverse Samples.endsB).map circles) = some
    [(⟨100, 140⟩, 30), (⟨100, 140⟩, 25), (⟨180, 140⟩, 30)] ∧ Samples.evenA.WF ∧
    (((drawNfa Options.default id Samples.evenA).map (fun ops => (circles ops).length)) = some 4) :=
  ⟨Samples.endsB_wf, by decide +kernel, Samples.evenA_wf, by decide +kernel⟩

end Dandy
