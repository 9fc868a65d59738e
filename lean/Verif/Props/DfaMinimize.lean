import Verif.Props.Samples
import Verif.Proofs.Minimize
/-! # C12-C17: reachability, equivalence classes, merging, minimization of DFAs -/

namespace Dandy
open Samples

theorem Dfa.reach_run {d : Dfa} (hd : d.WF) {q : Nat} : d.Reach q ↔ ∃ w, d.Run d.initialState w q := by
  unfold Dfa.Reach
  simp only [Dfa.run_iff hd hd.init_lt]

theorem Dfa.indist_iff {d : Dfa} (hd : d.WF) {p q : Nat} (hp : p < d.states.length) (hq : q < d.states.length) :
    d.Indist p q ↔ d.Ind p q := by
  have key : ∀ p < d.states.length, ∀ w, (∃ r, d.Run p w r ∧ d.Acc r) ↔
      (d.runE p w).map (fun r => (d.state r).accepting) = some true := by
    intro p hp w
    rw [Option.map_eq_some_iff]
    constructor
    · rintro ⟨r, h1, h2⟩
      rw [Dfa.run_iff hd hp] at h1
      exact ⟨r, h1, (Dfa.acc_iff (Dfa.runE_lt hd hp h1)).1 h2⟩
    · rintro ⟨r, h1, h2⟩
      exact ⟨r, (Dfa.run_iff hd hp).2 h1, (Dfa.acc_iff (Dfa.runE_lt hd hp h1)).2 h2⟩
  constructor
  · intro h w
    have h1 := h w
    rw [key p hp, key q hq] at h1
    by_cases hw : Over d.alphabet w
    · obtain ⟨a, ha⟩ := Dfa.runE_exists (d := d) p hw
      obtain ⟨b, hb⟩ := Dfa.runE_exists (d := d) q hw
      rw [ha, hb] at h1 ⊢
      simp only [Option.map_some, Option.some.injEq] at h1 ⊢
      rw [Bool.eq_iff_iff]; exact h1
    · have h2 : ∀ q, d.runE q w = none := by
        intro q; rw [Dfa.runE_none]; unfold Over at hw; push Not at hw; exact hw
      rw [h2, h2]
  · intro h w
    rw [key p hp, key q hq, h w]

/-- **C12** Reachable and unreachable state indices of a DFA, and the emptiness check. -/
theorem C12_dfa_reachability (d : Dfa) (hd : d.WF) :
    (∃ r, d.reachableStateIdx = some r ∧ r.Nodup ∧ ∀ q, q ∈ r ↔ ∃ w, d.Run d.initialState w q) ∧
    (∃ u, d.unreachableStateIdx = some u ∧ u.Nodup ∧
      ∀ q, q ∈ u ↔ q < d.states.length ∧ ¬ ∃ w, d.Run d.initialState w q) ∧
    (∃ b, d.hasReachableAcceptingState = some b ∧ (b = true ↔ ∃ w, d.Lang w)) := by
  obtain ⟨r, h1, h2, h3⟩ := Dfa.reachableStateIdx_spec hd
  obtain ⟨u, u1, u2, u3⟩ := Dfa.unreachableStateIdx_spec hd
  refine ⟨⟨r, h1, sorted_nodup h2, fun q => by rw [h3, Dfa.reach_run hd]⟩,
    ⟨u, u1, sorted_nodup u2, fun q => by rw [u3, Dfa.reach_run hd]⟩, ⟨_, by rw [Dfa.hasReachableAcceptingState, h1]; rfl, ?_⟩⟩
  rw [List.any_eq_true]
  constructor
  · rintro ⟨q, hq, ha⟩
    obtain ⟨w, hw⟩ := (h3 q).1 hq
    exact ⟨w, (Dfa.lang_iff hd).2 ⟨q, hw, ha⟩⟩
  · rintro ⟨w, hw⟩
    obtain ⟨q, h4, h5⟩ := (Dfa.lang_iff hd).1 hw
    exact ⟨q, (h3 q).2 ⟨w, h4⟩, h5⟩

theorem states_map_nodup {d : Dfa} (hd : d.WF) {l : List Nat} (hl : l.Nodup) (hlt : ∀ q ∈ l, q < d.states.length) :
    (l.map d.state).Nodup := by
  rw [List.nodup_map_iff_inj_on hl]
  intro x hx y hy hxy
  have m1 : (d.states.map (·.name))[x]? = some (d.state x).name := by simp [Dfa.getElem?_state (hlt x hx)]
  have m2 : (d.states.map (·.name))[y]? = some (d.state x).name := by simp [Dfa.getElem?_state (hlt y hy), hxy]
  exact (List.getElem?_inj (by simpa using hlt x hx) hd.names_nodup).1 (m1.trans m2.symm)

/-- **C12** The lists of states: every (un)reachable state exactly once, for every hash iteration order. -/
theorem C12_dfa_reachable_states (ord : List Nat → List Nat) (hord : ∀ l, (ord l).Perm l) (d : Dfa) (hd : d.WF) :
    (∃ l, d.reachableStates ord = some l ∧ l.Nodup ∧
      ∀ s, s ∈ l ↔ ∃ q : Nat, d.states[q]? = some s ∧ ∃ w, d.Run d.initialState w q) ∧
    (∃ l, d.unreachableStates ord = some l ∧ l.Nodup ∧
      ∀ s, s ∈ l ↔ ∃ q : Nat, d.states[q]? = some s ∧ ¬ ∃ w, d.Run d.initialState w q) := by
  obtain ⟨r, h1, h2, h3⟩ := Dfa.reachableStateIdx_spec hd
  obtain ⟨u, u1, u2, u3⟩ := Dfa.unreachableStateIdx_spec hd
  constructor
  · refine ⟨_, by rw [Dfa.reachableStates, h1]; rfl, ?_, ?_⟩
    · apply states_map_nodup hd ((hord r).nodup_iff.2 (sorted_nodup h2))
      intro q hq
      exact ((h3 q).1 ((hord r).mem_iff.1 hq)).lt hd
    · intro s
      rw [List.mem_map]
      constructor
      · rintro ⟨q, hq, rfl⟩
        have := (h3 q).1 ((hord r).mem_iff.1 hq)
        exact ⟨q, Dfa.getElem?_state (this.lt hd), (Dfa.reach_run hd).1 this⟩
      · rintro ⟨q, hq, hw⟩
        exact ⟨q, (hord r).mem_iff.2 ((h3 q).2 ((Dfa.reach_run hd).2 hw)), Dfa.state_of_getElem? hq⟩
  · refine ⟨_, by rw [Dfa.unreachableStates, u1]; rfl, ?_, ?_⟩
    · apply states_map_nodup hd ((hord u).nodup_iff.2 (sorted_nodup u2))
      intro q hq
      exact ((u3 q).1 ((hord u).mem_iff.1 hq)).1
    · intro s
      rw [List.mem_map]
      constructor
      · rintro ⟨q, hq, rfl⟩
        have := (u3 q).1 ((hord u).mem_iff.1 hq)
        exact ⟨q, Dfa.getElem?_state this.1, by rw [← Dfa.reach_run hd]; exact this.2⟩
      · rintro ⟨q, hq, hw⟩
        exact ⟨q, (hord u).mem_iff.2 ((u3 q).2 ⟨lt_of_getElem? hq, by rw [Dfa.reach_run hd]; exact hw⟩),
          Dfa.state_of_getElem? hq⟩

example : oddA.reachableStateIdx = some [0, 1] ∧ oddA.unreachableStateIdx = some [2] ∧
    oddA.hasReachableAcceptingState = some true ∧
    (oddA.unreachableStates List.reverse).map (·.map (·.name)) = some [s 'u'] := by decide

/-- **C13** Removing unreachable states never panics, keeps the alphabet and language, keeps exactly the reachable states in
their order with their names and flags, and leaves only reachable states. -/
theorem C13_remove_unreachable (ord : List Nat → List Nat) (hord : ∀ l, (ord l).Perm l) (d : Dfa) (hd : d.WF) :
    ∃ d', d.removeUnreachableStates ord = some d' ∧ d'.WF ∧ d'.alphabet = d.alphabet ∧
      (∀ w, d'.Lang w ↔ d.Lang w) ∧
      (∀ q < d'.states.length, ∃ w, d'.Run d'.initialState w q) ∧
      (d'.states.map (fun s => (s.name, s.initial, s.accepting))).Sublist
        (d.states.map (fun s => (s.name, s.initial, s.accepting))) ∧
      (∀ (q : Nat) (s : DfaState), d.states[q]? = some s →
        (s.name ∈ d'.states.map (·.name) ↔ ∃ w, d.Run d.initialState w q)) := by
  obtain ⟨kept, h1, h2, h3, h4⟩ := Dfa.removeUnreachableStates_eq hord hd
  refine ⟨_, h4, Dfa.quot_wf hd h3, rfl, Dfa.quot_id_lang hd h3, ?_, ?_, ?_⟩
  · intro q hq
    have := Dfa.quot_id_allReach hd h2 h3 q hq
    exact (Dfa.reach_run (Dfa.quot_wf hd h3)).1 this
  · have hsub : kept.Sublist (List.range d.states.length) := by
      have : kept = (List.range d.states.length).filter (fun q => decide (q ∈ kept)) := by
        apply sorted_ext h1 (sorted_filter_range _ _)
        intro x; simp only [List.mem_filter, List.mem_range, decide_eq_true_eq]
        exact ⟨fun h => ⟨h3.lt x h, h⟩, fun h => h.2⟩
      rw [this]; exact List.filter_sublist
    have hr : d.states.map (fun s => (s.name, s.initial, s.accepting)) =
        (List.range d.states.length).map (fun q => ((d.state q).name, (d.state q).initial, (d.state q).accepting)) := by
      conv_lhs => rw [eq_map_getD d.states default, List.map_map]
      rfl
    have hl : (Dfa.quot d kept id).states.map (fun s => (s.name, s.initial, s.accepting)) =
        kept.map (fun q => ((d.state q).name, (d.state q).initial, (d.state q).accepting)) := by
      simp only [Dfa.quot, List.map_map]
      apply List.map_congr_left
      intro q hq
      have := hd.init_flag q _ (Dfa.getElem?_state (h3.lt q hq))
      simp only [Function.comp_apply, id]
      rw [show (d.state q).initial = decide (q = d.initialState) by rw [Bool.eq_iff_iff, this]; simp]
    rw [hr, hl]
    exact hsub.map _
  · intro q s hs
    have hq := lt_of_getElem? hs
    rw [← Dfa.reach_run hd, ← h2]
    simp only [Dfa.quot, List.map_map, List.mem_map, Function.comp_apply]
    constructor
    · rintro ⟨p, hp, hps⟩
      have m1 : (d.states.map (·.name))[p]? = some s.name := by simp [Dfa.getElem?_state (h3.lt p hp), hps]
      have m2 : (d.states.map (·.name))[q]? = some s.name := by simp [hs]
      have := (List.getElem?_inj (by simpa using h3.lt p hp) hd.names_nodup).1 (m1.trans m2.symm)
      subst this; exact hp
    · intro h
      exact ⟨q, h, by rw [Dfa.state_of_getElem? hs]⟩

example : (oddA.removeUnreachableStates id).map (fun d => d.states.map (·.name)) = some [s 'e', s 'o'] ∧
    (redundant.removeUnreachableStates id).map (fun d => d.states.length) = some 5 := by decide

/-- **C14** The equivalence classes are a partition of the states into exactly the classes of indistinguishable states. -/
theorem C14_equivalence_classes (d : Dfa) (hd : d.WF) :
    ∃ P, d.stateEquivalenceClassesIdx = some P ∧
      (∀ B ∈ P, B ≠ []) ∧ P.flatten.Perm (List.range d.states.length) ∧
      (∀ B ∈ P, ∀ p ∈ B, ∀ q < d.states.length, (q ∈ B ↔ d.Indist p q)) := by
  obtain ⟨P, h1, h2⟩ := Dfa.classes_spec hd
  refine ⟨P, h1, h2.ne, h2.part, ?_⟩
  intro B hB p hp q hq
  have hplt : p < d.states.length := by
    have : p ∈ P.flatten := List.mem_flatten.2 ⟨B, hB, hp⟩
    simpa using h2.part.mem_iff.1 this
  rw [Dfa.indist_iff hd hplt hq]
  exact h2.same B hB p hp q hq

/-- **C14** The version returning states: for every hash order the i-th list consists of the states of the i-th class. -/
theorem C14_state_classes (ord : List Nat → List Nat) (hord : ∀ l, (ord l).Perm l) (d : Dfa) (hd : d.WF) :
    ∃ P C, d.stateEquivalenceClassesIdx = some P ∧ d.stateEquivalenceClasses ord = some C ∧
      List.Forall₂ (fun (B : List Nat) (l : List DfaState) =>
        l.Nodup ∧ ∀ s, s ∈ l ↔ ∃ q ∈ B, d.states[q]? = some s) P C := by
  obtain ⟨P, h1, h2⟩ := Dfa.classes_spec hd
  refine ⟨P, _, h1, by rw [Dfa.stateEquivalenceClasses, h1]; rfl, ?_⟩
  have hlt : ∀ B ∈ P, ∀ q ∈ B, q < d.states.length := by
    intro B hB q hq
    have : q ∈ P.flatten := List.mem_flatten.2 ⟨B, hB, hq⟩
    simpa using h2.part.mem_iff.1 this
  rw [List.forall₂_map_right_iff]
  apply List.forall₂_same.2
  intro B hB
  refine ⟨states_map_nodup hd ((hord B).nodup_iff.2 (sorted_nodup (h2.sorted B hB))) (fun q hq => hlt B hB q ((hord B).mem_iff.1 hq)), ?_⟩
  intro st
  rw [List.mem_map]
  constructor
  · rintro ⟨q, hq, rfl⟩
    have := (hord B).mem_iff.1 hq
    exact ⟨q, this, Dfa.getElem?_state (hlt B hB q this)⟩
  · rintro ⟨q, hq, h⟩
    exact ⟨q, (hord B).mem_iff.2 hq, Dfa.state_of_getElem? h⟩

example : redundant.stateEquivalenceClassesIdx = some [[1, 2], [5], [3, 4], [0]] ∧
    oddA.stateEquivalenceClassesIdx = some [[1, 2], [0]] := by decide

/-- **C15** Merging: no panic, same alphabet and language, all states pairwise distinguishable, as many states as classes;
for all choices of representatives (hash orders). -/
theorem C15_merge (ord ordKeys : List Nat → List Nat) (hord : ∀ l, (ord l).Perm l) (hK : ∀ l, (ordKeys l).Perm l)
    (d : Dfa) (hd : d.WF) :
    ∃ m P, d.mergeNondistinguishableStates ord ordKeys = some m ∧ m.WF ∧ m.alphabet = d.alphabet ∧
      (∀ w, m.Lang w ↔ d.Lang w) ∧
      (∀ p < m.states.length, ∀ q < m.states.length, m.Indist p q → p = q) ∧
      d.stateEquivalenceClassesIdx = some P ∧ m.states.length = P.length := by
  obtain ⟨P, p1, p2⟩ := Dfa.classes_spec hd
  obtain ⟨kept, _, k2, k3, k4⟩ := Dfa.merge_eq hord hK hd p1 p2
  have hwf := Dfa.quot_wf hd k3
  refine ⟨_, P, k4, hwf, rfl, Dfa.merged_lang hord hd p2 k2 k3, ?_, p1, Dfa.merged_length hord hd p2 k2 k3⟩
  intro p hp q hq h
  exact Dfa.merged_reduced hord hd p2 k2 k3 p hp q hq ((Dfa.indist_iff hwf hp hq).1 h)

/-- **C15** The states left over are states of the original DFA (names, acceptance); what is left of every class is exactly
one member. -/
theorem C15_merge_keeps_one_per_class (ord ordKeys : List Nat → List Nat) (hord : ∀ l, (ord l).Perm l)
    (hK : ∀ l, (ordKeys l).Perm l) (d m : Dfa) (hd : d.WF)
    (hm : d.mergeNondistinguishableStates ord ordKeys = some m) :
    (∀ s ∈ m.states, ∃ t ∈ d.states, t.name = s.name ∧ t.accepting = s.accepting) ∧
    (∀ q < d.states.length, ∃ p, d.Indist q p ∧ ∃ s t, d.states[p]? = some s ∧ t ∈ m.states ∧ t.name = s.name) := by
  obtain ⟨P, p1, p2⟩ := Dfa.classes_spec hd
  obtain ⟨kept, _, k2, k3, k4⟩ := Dfa.merge_eq hord hK hd p1 p2
  rw [k4] at hm; cases hm
  constructor
  · intro s hs
    simp only [Dfa.quot, List.mem_map] at hs
    obtain ⟨q, hq, rfl⟩ := hs
    exact ⟨d.state q, Dfa.state_mem (k3.lt q hq), rfl, rfl⟩
  · intro q hq
    have hr := Dfa.rep_lt hord p2 hq
    have hk := (k2 _).2 ⟨hr, Dfa.rep_rep hord p2 hq⟩
    exact ⟨_, (Dfa.indist_iff hd hq hr).2 (Dfa.rep_ind hord p2 hq), _, _, Dfa.getElem?_state hr,
      List.mem_map.2 ⟨_, hk, rfl⟩, rfl⟩

example : (redundant.mergeNondistinguishableStates List.reverse id).map (fun d => (d.states.map (·.name), d.initialState))
      = some ([s '0', s '2', s '4', s '5'], 0) ∧
    (endsB.invert.mergeNondistinguishableStates id List.reverse).isSome = true := by decide

/-- **C16** `minimize` never panics, preserves alphabet and language, and no valid DFA over the same alphabet (in whatever
order) with the same language has fewer states. -/
theorem C16_minimize (ordU ord ordKeys : List Nat → List Nat) (hU : ∀ l, (ordU l).Perm l)
    (hord : ∀ l, (ord l).Perm l) (hK : ∀ l, (ordKeys l).Perm l) (d : Dfa) (hd : d.WF) :
    ∃ m, d.minimize ordU ord ordKeys = some m ∧ m.WF ∧ m.alphabet = d.alphabet ∧ (∀ w, m.Lang w ↔ d.Lang w) ∧
      ∀ o : Dfa, o.WF → SameElems o.alphabet d.alphabet → (∀ w, o.Lang w ↔ d.Lang w) →
        m.states.length ≤ o.states.length := by
  obtain ⟨m, h1, h2, h3, h4, h5, h6⟩ := Dfa.minimize_spec hU hord hK hd
  refine ⟨m, h1, h2, h3, h4, ?_⟩
  intro o ho ha hl
  exact Dfa.minimal_of_reduced h2 ho h5 h6 (fun e => by rw [h3]; exact (ha e).symm) (fun w => by rw [h4, hl])

/-- **C16** In the minimized DFA all states are reachable and pairwise distinguishable. -/
theorem C16_minimize_reduced (ordU ord ordKeys : List Nat → List Nat) (hU : ∀ l, (ordU l).Perm l)
    (hord : ∀ l, (ord l).Perm l) (hK : ∀ l, (ordKeys l).Perm l) (d m : Dfa) (hd : d.WF)
    (hm : d.minimize ordU ord ordKeys = some m) :
    (∀ q < m.states.length, ∃ w, m.Run m.initialState w q) ∧
    (∀ p < m.states.length, ∀ q < m.states.length, m.Indist p q → p = q) := by
  obtain ⟨m', h1, h2, h3, h4, h5, h6⟩ := Dfa.minimize_spec hU hord hK hd
  rw [h1] at hm; cases hm
  exact ⟨fun q hq => (Dfa.reach_run h2).1 (h6 q hq),
    fun p hp q hq h => h5 p hp q hq ((Dfa.indist_iff h2 hp hq).1 h)⟩

example : (redundant.minimize id id id).map (fun d => d.states.length) = some 3 ∧
    (oddA.minimize List.reverse List.reverse List.reverse).map (fun d => d.states.length) = some 2 := by decide

/-- **C17** Equivalent DFAs over the same alphabet minimize to isomorphic DFAs, for all hash orders of both runs. -/
theorem C17_minimize_unique (ordU ord ordKeys ordU' ord' ordKeys' : List Nat → List Nat)
    (hU : ∀ l, (ordU l).Perm l) (hord : ∀ l, (ord l).Perm l) (hK : ∀ l, (ordKeys l).Perm l)
    (hU' : ∀ l, (ordU' l).Perm l) (hord' : ∀ l, (ord' l).Perm l) (hK' : ∀ l, (ordKeys' l).Perm l)
    (d o : Dfa) (hd : d.WF) (ho : o.WF) (ha : d.alphabet = o.alphabet) (hl : ∀ w, d.Lang w ↔ o.Lang w) :
    ∃ m m' φ, d.minimize ordU ord ordKeys = some m ∧ o.minimize ordU' ord' ordKeys' = some m' ∧ Dfa.Iso m m' φ := by
  obtain ⟨m, h1, h2, h3, h4, h5, h6⟩ := Dfa.minimize_spec hU hord hK hd
  obtain ⟨m', i1, i2, i3, i4, i5, i6⟩ := Dfa.minimize_spec hU' hord' hK' ho
  obtain ⟨φ, hφ⟩ := Dfa.iso_of_reduced h2 i2 h5 i5 h6 i6 (by rw [h3, i3, ha]) (fun w => by rw [h4, i4, hl])
  exact ⟨m, m', φ, h1, i1, hφ⟩

/-- **C17** Minimizing a second time changes nothing but the order and the choice of names: the number of states stays. -/
theorem C17_minimize_idempotent (ordU ord ordKeys ordU' ord' ordKeys' : List Nat → List Nat)
    (hU : ∀ l, (ordU l).Perm l) (hord : ∀ l, (ord l).Perm l) (hK : ∀ l, (ordKeys l).Perm l)
    (hU' : ∀ l, (ordU' l).Perm l) (hord' : ∀ l, (ord' l).Perm l) (hK' : ∀ l, (ordKeys' l).Perm l)
    (d m : Dfa) (hd : d.WF) (hm : d.minimize ordU ord ordKeys = some m) :
    ∃ m', m.minimize ordU' ord' ordKeys' = some m' ∧ m'.states.length = m.states.length := by
  obtain ⟨m1, h1, h2, h3, h4, h5, h6⟩ := Dfa.minimize_spec hU hord hK hd
  rw [h1] at hm; cases hm
  obtain ⟨m', i1, i2, i3, i4, i5, i6⟩ := Dfa.minimize_spec hU' hord' hK' h2
  obtain ⟨φ, hφ⟩ := Dfa.iso_of_reduced h2 i2 h5 i5 h6 i6 i3.symm (fun w => (i4 w).symm)
  exact ⟨m', i1, hφ.count.symm⟩

/-- A DFA equivalent to `redundant` with other names and another order of the states. -/
def redundant' : Dfa :=
  { alphabet := [s 'a', s 'b'],
    states := [⟨s 'x', false, false, [0, 0]⟩, ⟨s 'y', false, true, [0, 0]⟩, ⟨s 'z', true, false, [1, 1]⟩],
    initialState := 2 }

theorem redundant'_wf : redundant'.WF := Dfa.wf_of_wfB (by decide)

example : redundant.alphabet = redundant'.alphabet ∧ Dfa.equivalentTo redundant redundant' = some true ∧
    (redundant'.minimize id id id).map (fun d => d.states.length) = some 3 := by decide

/-! ## Instances of the theorems of this file -/

example := C12_dfa_reachability Samples.redundant Samples.redundant_wf
example := C14_equivalence_classes Samples.redundant Samples.redundant_wf
example := C15_merge List.reverse List.reverse (fun l => List.reverse_perm l) (fun l => List.reverse_perm l) Samples.redundant
  Samples.redundant_wf
example := C16_minimize List.reverse List.reverse List.reverse (fun l => List.reverse_perm l) (fun l => List.reverse_perm l) (fun l =>
  List.reverse_perm l) Samples.redundant Samples.redundant_wf
example := C17_minimize_unique List.reverse List.reverse List.reverse id id id (fun l => List.reverse_perm l) (fun l => List.reverse_perm
  l) (fun l => List.reverse_perm l) (fun l => .refl l) (fun l => .refl l) (fun l => .refl l) redundant redundant redundant_wf redundant_wf
  rfl (fun _ => Iff.rfl)
example := C17_minimize_idempotent List.reverse List.reverse List.reverse List.reverse List.reverse List.reverse (fun l =>
  List.reverse_perm l) (fun l => List.reverse_perm l) (fun l => List.reverse_perm l) (fun l => List.reverse_perm l) (fun l =>
  List.reverse_perm l) (fun l => List.reverse_perm l) redundant _ redundant_wf (Option.some_get (show (redundant.minimize List.reverse
  List.reverse List.reverse).isSome by decide)).symm

end Dandy
