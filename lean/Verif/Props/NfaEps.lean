import Verif.Props.NfaEvaluator
import Verif.Proofs.NfaEps
/-! # C25, C26 removal of epsilon moves, C27 reachability, C28 optimize -/

namespace Dandy
open Samples

/-- **C27** Reachable and unreachable state indices of an NFA, and the emptiness check. -/
theorem C27_nfa_reachability (n : Nfa) (hn : n.WF) :
    (∃ r, n.reachableStateIdx = some r ∧ r.Nodup ∧ ∀ q, q ∈ r ↔ ∃ w, n.Path n.initialState w q) ∧
    (∃ u, n.unreachableStateIdx = some u ∧ u.Nodup ∧
      ∀ q, q ∈ u ↔ q < n.states.length ∧ ¬ ∃ w, n.Path n.initialState w q) ∧
    (∃ b, n.hasReachableAcceptingState = some b ∧ (b = true ↔ ∃ w, n.Lang w)) := by
  obtain ⟨r, h1, h2, h3⟩ := Nfa.reachableStateIdx_spec hn
  obtain ⟨u, u1, u2, u3⟩ := Nfa.unreachableStateIdx_spec hn
  refine ⟨⟨r, h1, sorted_nodup h2, h3⟩, ⟨u, u1, sorted_nodup u2, u3⟩,
    ⟨_, by rw [Nfa.hasReachableAcceptingState, h1]; rfl, ?_⟩⟩
  rw [List.any_eq_true]
  constructor
  · rintro ⟨q, hq, ha⟩
    obtain ⟨w, hw⟩ := (h3 q).1 hq
    exact ⟨w, q, hw, Nfa.acc_iff.2 ha⟩
  · rintro ⟨w, q, h4, h5⟩
    exact ⟨q, (h3 q).2 ⟨w, h4⟩, Nfa.acc_iff.1 h5⟩

theorem nfa_states_map_nodup {n : Nfa} (hn : n.WF) {l : List Nat} (hl : l.Nodup) (hlt : ∀ q ∈ l, q < n.states.length) :
    (l.map n.state).Nodup := by
  rw [List.nodup_map_iff_inj_on hl]
  intro x hx y hy hxy
  have m1 : (n.states.map (·.name))[x]? = some (n.state x).name := by simp [Nfa.getElem?_state (hlt x hx)]
  have m2 : (n.states.map (·.name))[y]? = some (n.state x).name := by simp [Nfa.getElem?_state (hlt y hy), hxy]
  exact (List.getElem?_inj (by simpa using hlt x hx) hn.names_nodup).1 (m1.trans m2.symm)

/-- **C27** The lists of states: every (un)reachable state exactly once, for every hash iteration order. -/
theorem C27_nfa_reachable_states (ord : List Nat → List Nat) (hord : ∀ l, (ord l).Perm l) (n : Nfa) (hn : n.WF) :
    (∃ l, n.reachableStates ord = some l ∧ l.Nodup ∧
      ∀ s, s ∈ l ↔ ∃ q : Nat, n.states[q]? = some s ∧ ∃ w, n.Path n.initialState w q) ∧
    (∃ l, n.unreachableStates ord = some l ∧ l.Nodup ∧
      ∀ s, s ∈ l ↔ ∃ q : Nat, n.states[q]? = some s ∧ ¬ ∃ w, n.Path n.initialState w q) := by
  obtain ⟨r, h1, h2, h3⟩ := Nfa.reachableStateIdx_spec hn
  obtain ⟨u, u1, u2, u3⟩ := Nfa.unreachableStateIdx_spec hn
  constructor
  · refine ⟨_, by rw [Nfa.reachableStates, h1]; rfl, ?_, ?_⟩
    · apply nfa_states_map_nodup hn ((hord r).nodup_iff.2 (sorted_nodup h2))
      intro q hq
      exact ((h3 q).1 ((hord r).mem_iff.1 hq)).lt hn
    · intro s
      rw [List.mem_map]
      constructor
      · rintro ⟨q, hq, rfl⟩
        have := (h3 q).1 ((hord r).mem_iff.1 hq)
        exact ⟨q, Nfa.getElem?_state (this.lt hn), this⟩
      · rintro ⟨q, hq, hw⟩
        exact ⟨q, (hord r).mem_iff.2 ((h3 q).2 hw), Nfa.state_of_getElem? hq⟩
  · refine ⟨_, by rw [Nfa.unreachableStates, u1]; rfl, ?_, ?_⟩
    · apply nfa_states_map_nodup hn ((hord u).nodup_iff.2 (sorted_nodup u2))
      intro q hq
      exact ((u3 q).1 ((hord u).mem_iff.1 hq)).1
    · intro s
      rw [List.mem_map]
      constructor
      · rintro ⟨q, hq, rfl⟩
        have := (u3 q).1 ((hord u).mem_iff.1 hq)
        exact ⟨q, Nfa.getElem?_state this.1, this.2⟩
      · rintro ⟨q, hq, hw⟩
        exact ⟨q, (hord u).mem_iff.2 ((u3 q).2 ⟨lt_of_getElem? hq, hw⟩), Nfa.state_of_getElem? hq⟩

/-- **C27** Removing unreachable states never panics, keeps the alphabet and language, keeps exactly the reachable states in
their order with their names and flags, and leaves only reachable states. -/
theorem C27_nfa_remove_unreachable (ord : List Nat → List Nat) (hord : ∀ l, (ord l).Perm l) (n : Nfa) (hn : n.WF) :
    ∃ n', n.removeUnreachableStates ord = some n' ∧ n'.WF ∧ n'.alphabet = n.alphabet ∧
      (∀ w, n'.Lang w ↔ n.Lang w) ∧
      (∀ q < n'.states.length, ∃ w, n'.Path n'.initialState w q) ∧
      (n'.states.map (fun s => (s.name, s.initial, s.accepting))).Sublist
        (n.states.map (fun s => (s.name, s.initial, s.accepting))) ∧
      (∀ (q : Nat) (s : NfaState), n.states[q]? = some s →
        (s.name ∈ n'.states.map (·.name) ↔ ∃ w, n.Path n.initialState w q)) := by
  obtain ⟨kept, h1, h2, h3, h4⟩ := Nfa.removeUnreachableStates_eq hord hn
  refine ⟨_, h4, Nfa.restr_wf' hn h3, rfl, Nfa.restr_lang h3, ?_, ?_, ?_⟩
  · intro q hq
    have hq' : q < kept.length := by simpa [Nfa.restr] using hq
    have hm : kept[q] ∈ kept := List.getElem_mem hq'
    obtain ⟨w, hw⟩ := (h2 _).1 hm
    refine ⟨w, (Nfa.restr_path_iff h3 h3.init).2 ⟨_, hm, ?_, hw⟩⟩
    rw [List.Nodup.idxOf_getElem h3.nodup q hq']
  · have hsub : kept.Sublist (List.range n.states.length) := by
      have : kept = (List.range n.states.length).filter (fun q => decide (q ∈ kept)) := by
        apply sorted_ext h1 (sorted_filter_range _ _)
        intro x; simp only [List.mem_filter, List.mem_range, decide_eq_true_eq]
        exact ⟨fun h => ⟨h3.lt x h, h⟩, fun h => h.2⟩
      rw [this]; exact List.filter_sublist
    have hr : n.states.map (fun s => (s.name, s.initial, s.accepting)) =
        (List.range n.states.length).map (fun q => ((n.state q).name, (n.state q).initial, (n.state q).accepting)) := by
      conv_lhs => rw [eq_map_getD n.states default, List.map_map]
      rfl
    have hl : (n.restr kept).states.map (fun s => (s.name, s.initial, s.accepting)) =
        kept.map (fun q => ((n.state q).name, (n.state q).initial, (n.state q).accepting)) := by
      simp only [Nfa.restr, List.map_map]
      rfl
    rw [hr, hl]
    exact hsub.map _
  · intro q s hs
    show _ ↔ n.Reach q
    rw [← h2]
    simp only [Nfa.restr, List.map_map, List.mem_map, Function.comp_apply]
    constructor
    · rintro ⟨p, hp, hps⟩
      have m1 : (n.states.map (·.name))[p]? = some s.name := by simp [Nfa.getElem?_state (h3.lt p hp), hps]
      have m2 : (n.states.map (·.name))[q]? = some s.name := by simp [hs]
      have := (List.getElem?_inj (by simpa using h3.lt p hp) hn.names_nodup).1 (m1.trans m2.symm)
      subst this; exact hp
    · intro h
      exact ⟨q, h, by rw [Nfa.state_of_getElem? hs]⟩

example : epsNfa.reachableStateIdx = some [0, 1, 2, 3, 4] ∧ epsNfa.unreachableStateIdx = some [5] ∧
    epsNfa.hasReachableAcceptingState = some true ∧
    (epsNfa.removeUnreachableStates List.reverse).map (·.states.map (·.name)) =
      some [s '0', s '1', s '2', s '3', s '4'] := by decide

/-- **C25** Removing epsilon moves terminates without panicking for every hash iteration order; the result is valid, has
no epsilon moves, the same alphabet, and accepts exactly the same words. -/
theorem C25_remove_epsilon_moves (ordT : Nat → Nat → List Nat → List Nat) (hordT : ∀ s c l, (ordT s c l).Perm l)
    (ordDead : List Nat → List Nat) (hordDead : ∀ l, (ordDead l).Perm l) (n : Nfa) (hn : n.WF) :
    ∃ m, n.removeEpsilonMoves ordT ordDead = some m ∧ m.WF ∧ m.alphabet = n.alphabet ∧
      (∀ s ∈ m.states, s.epsilonTransitions = []) ∧ m.hasEpsilonMoves = false ∧
      (∀ w, m.Lang w ↔ n.Lang w) ∧ ∀ w, m.accepts w = n.accepts w := by
  have key : ∃ m, n.removeEpsilonMoves ordT ordDead = some m ∧ m.WF ∧ m.alphabet = n.alphabet ∧
      (∀ s ∈ m.states, s.epsilonTransitions = []) ∧ (∀ w, m.Lang w ↔ n.Lang w) := by
    cases he : n.hasEpsilonMoves with
    | false =>
      refine ⟨n, by simp [Nfa.removeEpsilonMoves, he], hn, rfl, ?_, fun _ => Iff.rfl⟩
      simpa [Nfa.hasEpsilonMoves] using he
    | true =>
      obtain ⟨m, D, h1, h2, _⟩ := Nfa.removeEpsilonMoves_eq hordT hordDead hn he
      refine ⟨_, h1, h2.restr_wf hn, h2.alph, ?_, h2.restr_lang hn⟩
      intro s hs
      simp only [Nfa.restr, List.mem_map] at hs
      obtain ⟨q, _, rfl⟩ := hs
      have := h2.no_eps q
      unfold Nfa.ep at this
      simp [this]
  obtain ⟨m, h1, h2, h3, h4, h5⟩ := key
  refine ⟨m, h1, h2, h3, h4, ?_, h5, ?_⟩
  · simpa [Nfa.hasEpsilonMoves] using h4
  · intro w
    rw [Bool.eq_iff_iff, C02_nfa_accepts_iff _ h2, C02_nfa_accepts_iff n hn]
    exact h5 w

/-- **C25** An NFA without epsilon moves is left untouched. -/
theorem C25_untouched (ordT : Nat → Nat → List Nat → List Nat) (ordDead : List Nat → List Nat) (n : Nfa)
    (h : ∀ s ∈ n.states, s.epsilonTransitions = []) : n.removeEpsilonMoves ordT ordDead = some n := by
  have : n.hasEpsilonMoves = false := by simpa [Nfa.hasEpsilonMoves] using h
  simp [Nfa.removeEpsilonMoves, this]

/-- **C25** Names and flags: the remaining states other than the initial one are states of the original NFA (same name,
same accepting flag); the initial one keeps its name, or is called `s_new`, or is called by a number. -/
theorem C25_names (ordT : Nat → Nat → List Nat → List Nat) (hordT : ∀ s c l, (ordT s c l).Perm l)
    (ordDead : List Nat → List Nat) (hordDead : ∀ l, (ordDead l).Perm l) (n : Nfa) (hn : n.WF) (m : Nfa)
    (h : n.removeEpsilonMoves ordT ordDead = some m) :
    (∀ s ∈ m.states, s.initial = false → ∃ s' ∈ n.states, s'.name = s.name ∧ s'.accepting = s.accepting) ∧
    (∀ s ∈ m.states, s.initial = true → (∃ s' ∈ n.states, s'.initial = true ∧ s'.name = s.name) ∨
      s.name = ['s', '_', 'n', 'e', 'w'] ∨ ∃ i, s.name = numStr i) := by
  cases he : n.hasEpsilonMoves with
  | false =>
    have := C25_untouched ordT ordDead n (by simpa [Nfa.hasEpsilonMoves] using he)
    rw [this] at h; cases h
    exact ⟨fun s hs _ => ⟨s, hs, rfl, rfl⟩, fun s hs hi => Or.inl ⟨s, hs, hi, rfl⟩⟩
  | true =>
    obtain ⟨m', D, h1, h2, _⟩ := Nfa.removeEpsilonMoves_eq hordT hordDead hn he
    rw [h1] at h; cases h
    have hle := h2.le
    constructor
    · intro s hs hi
      simp only [Nfa.restr, List.mem_map] at hs
      obtain ⟨q, hq, rfl⟩ := hs
      have hq1 := (mem_keptOf.1 hq).1
      have hfl := h2.flags q hq1
      simp only at hi
      rw [hi] at hfl
      have hqi : q ≠ m'.initialState := fun h => by simpa using hfl.2 h
      have hqn : q < n.states.length := by
        rcases h2.init with ⟨g1, _⟩ | ⟨g1, g2, _⟩ <;> omega
      obtain ⟨o1, o2, _⟩ := h2.old q hqn
      exact ⟨_, Nfa.state_mem hqn, o1.symm, o2.symm⟩
    · intro s hs hi
      simp only [Nfa.restr, List.mem_map] at hs
      obtain ⟨q, hq, rfl⟩ := hs
      have hq1 := (mem_keptOf.1 hq).1
      have hqi := (h2.flags q hq1).1 hi
      have hinit := Nfa.state_mem hn.init_lt
      have hflag := (hn.init_flag _ _ (Nfa.getElem?_state hn.init_lt)).2 rfl
      rcases h2.init with ⟨g1, g2, _⟩ | ⟨g1, g2, _, _, _, _, g7⟩
      · left
        refine ⟨_, hinit, hflag, ?_⟩
        rw [hqi, g2, (h2.old _ hn.init_lt).1]
      · rw [g2] at hqi
        subst hqi
        rcases g7 with ⟨g8, _⟩ | ⟨g8, _⟩
        · left; exact ⟨_, hinit, hflag, g8.symm⟩
        · right
          simp only [g8]
          exact (freshName_spec (n.states.map (·.name)) Nfa.sNew).2

/-- **C26** If the NFA had epsilon moves, every remaining state that is neither initial nor accepting has a transition
to a remaining state. -/
theorem C26_no_dead_states (ordT : Nat → Nat → List Nat → List Nat) (hordT : ∀ s c l, (ordT s c l).Perm l)
    (ordDead : List Nat → List Nat) (hordDead : ∀ l, (ordDead l).Perm l) (n : Nfa) (hn : n.WF)
    (heps : ∃ s ∈ n.states, s.epsilonTransitions ≠ []) (m : Nfa) (h : n.removeEpsilonMoves ordT ordDead = some m) :
    ∀ s ∈ m.states, s.initial = false → s.accepting = false →
      ∃ ts ∈ s.transitions, ∃ t ∈ ts, t < m.states.length := by
  have he : n.hasEpsilonMoves = true := by
    simpa [Nfa.hasEpsilonMoves] using heps
  obtain ⟨m', D, h1, h2, _⟩ := Nfa.removeEpsilonMoves_eq hordT hordDead hn he
  rw [h1] at h; cases h
  have hwf := h2.restr_wf hn
  intro s hs hi ha
  have hs' := hs
  simp only [Nfa.restr, List.mem_map] at hs
  obtain ⟨q, hq, rfl⟩ := hs
  obtain ⟨hq1, hq2⟩ := mem_keptOf.1 hq
  have hfl := h2.flags q hq1
  simp only at hi ha
  rw [hi] at hfl
  have hqi : q ≠ m'.initialState := fun h => by simpa using hfl.2 h
  have hqn : q < n.states.length := by
    have := h2.le
    rcases h2.init with ⟨g1, _⟩ | ⟨g1, g2, _⟩ <;> omega
  rcases h2.live q hqn hq2 with g | g | ⟨c, t, g⟩
  · rw [← (h2.old q hqn).2.1, ha] at g; simp at g
  · exact absurd g hqi
  · by_cases hc : c < (m'.state q).transitions.length
    · have hmem : (m'.state q).transitions.getD c [] ∈ (m'.state q).transitions :=
        List.mem_of_getElem? (getElem?_of_lt [] hc)
      refine ⟨_, List.mem_map.2 ⟨_, hmem, rfl⟩, _, List.mem_map.2 ⟨t, g, rfl⟩, ?_⟩
      exact hwf.targets _ hs' _ (List.mem_map.2 ⟨_, hmem, rfl⟩) _ (List.mem_map.2 ⟨t, g, rfl⟩)
    · simp [Nfa.tr, hc] at g

/-- The automaton of the documentation example (dandy/src/nfa/mod.rs:736-745), states i, i0, i1, i2, i3, x, y. -/
def docNfa : Nfa :=
  { alphabet := [s 'a', s 'b', s 'c'],
    states := [⟨s 'i', true, false, [1, 2, 3], [[1], [3], [1, 3]]⟩, ⟨s '0', false, false, [1], [[], [], []]⟩,
      ⟨s '1', false, false, [6], [[1], [1], [0]]⟩, ⟨s '2', false, false, [], [[], [1], [1]]⟩,
      ⟨s '3', false, false, [2], [[2], [2], [2]]⟩, ⟨s 'x', false, false, [5], [[6], [5], [5]]⟩,
      ⟨s 'y', false, true, [], [[5], [6], [6]]⟩],
    initialState := 0 }

theorem docNfa_wf : docNfa.WF := Nfa.wf_of_wfB (by decide)

/-- Two different hash orders; the documented result: i1, i3, x, y and the new initial state named i. -/
example : (docNfa.removeEpsilonMoves (fun _ _ l => l) id).map (·.states.map (·.name)) =
      some [s '1', s '3', s 'x', s 'y', s 'i'] ∧
    (docNfa.removeEpsilonMoves (fun _ _ l => l.reverse) List.reverse).map (·.states.map (·.name)) =
      some [s '1', s '3', s 'x', s 'y', s 'i'] ∧
    (∃ st ∈ docNfa.states, st.epsilonTransitions ≠ []) := by decide

/-- The sentence of the documentation (dandy/src/nfa/mod.rs:697) "makes sure no states without any normal transitions
exists" is only true up to initial and accepting states: here the only remaining state has no transitions. -/
theorem C26_doc_claim_false : ∃ n m : Nfa, n.WF ∧ (∃ s ∈ n.states, s.epsilonTransitions ≠ []) ∧
    n.removeEpsilonMoves (fun _ _ l => l) id = some m ∧ ∃ s ∈ m.states, ∀ ts ∈ s.transitions, ts = [] := by
  refine ⟨{ alphabet := [s 'a'], states := [⟨s '0', true, true, [0], [[]]⟩], initialState := 0 }, _,
    Nfa.wf_of_wfB (by decide), by decide, rfl, by decide⟩

/-- **C28** `optimize` never panics, preserves alphabet and language, leaves no epsilon moves. -/
theorem C28_optimize (ordU : List Nat → List Nat) (hordU : ∀ l, (ordU l).Perm l)
    (ordT : Nat → Nat → List Nat → List Nat) (hordT : ∀ s c l, (ordT s c l).Perm l)
    (ordDead : List Nat → List Nat) (hordDead : ∀ l, (ordDead l).Perm l) (n : Nfa) (hn : n.WF) :
    ∃ m, n.optimize ordU ordT ordDead = some m ∧ m.WF ∧ m.alphabet = n.alphabet ∧
      (∀ s ∈ m.states, s.epsilonTransitions = []) ∧ (∀ w, m.Lang w ↔ n.Lang w) ∧ ∀ w, m.accepts w = n.accepts w := by
  obtain ⟨n', h1, h2, h3, h4, _⟩ := C27_nfa_remove_unreachable ordU hordU n hn
  obtain ⟨m, g1, g2, g3, g4, _, g6, _⟩ := C25_remove_epsilon_moves ordT hordT ordDead hordDead n' h2
  refine ⟨m, ?_, g2, g3.trans h3, g4, fun w => (g6 w).trans (h4 w), ?_⟩
  · rw [Nfa.optimize, h1]; exact g1
  · intro w
    rw [Bool.eq_iff_iff, C02_nfa_accepts_iff _ g2, C02_nfa_accepts_iff n hn]
    exact (g6 w).trans (h4 w)

example : (epsNfa.optimize id (fun _ _ l => l.reverse) id).map (fun m => (m.states.map (·.name), m.hasEpsilonMoves)) =
    some ([s '1', s '2', s '3', s '0'], false) := by decide

/-! ## Instances of the theorems of this file -/

example := C27_nfa_reachability Samples.epsNfa Samples.epsNfa_wf
example := C27_nfa_reachable_states List.reverse (fun l => List.reverse_perm l) Samples.epsNfa Samples.epsNfa_wf
example := C25_remove_epsilon_moves (fun _ _ l => l.reverse) (fun _ _ l => List.reverse_perm l) List.reverse (fun l => List.reverse_perm l)
  Samples.epsNfa Samples.epsNfa_wf
example := C25_untouched (fun _ _ l => l.reverse) List.reverse evenA (by decide)
example := C25_names (fun _ _ l => l.reverse) (fun _ _ l => List.reverse_perm l) List.reverse (fun l => List.reverse_perm l) Samples.epsNfa
  Samples.epsNfa_wf _ rfl
example := C26_no_dead_states (fun _ _ l => l.reverse) (fun _ _ l => List.reverse_perm l) List.reverse (fun l => List.reverse_perm l)
  epsNfa epsNfa_wf (by decide) _ rfl

end Dandy
