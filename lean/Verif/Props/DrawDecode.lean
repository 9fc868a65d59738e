import Verif.Proofs.DrawDecode
import Mathlib.Tactic.IntervalCases
import Verif.Props.Draw
/-! # What the ASCII picture tells: positive parts of C56, C64 and C65 -/

namespace Dandy
open Draw
open Samples (s)

/-- **C56** The labels of the groups of an NFA determine its moves: `e` is a label iff there is a move with `e`, or `e` is `ε` and there is
an epsilon move. -/
theorem C56_nfa_labels (n : Nfa) (i j : Nat) (e : Str) :
    e ∈ nfaLabels n i j ↔ n.Move i e j ∨ e = c!"ε" ∧ ∃ st, n.states[i]? = some st ∧ j ∈ st.epsilonTransitions := by
  unfold nfaLabels
  constructor
  · intro he
    split at he
    · cases he
    · rename_i st hst
      rcases List.mem_append.1 he with he | he
      · obtain ⟨x, hx, he⟩ := List.mem_flatMap.1 he
        obtain ⟨hc, rfl⟩ := List.mem_replicate.1 he
        obtain ⟨k, hk⟩ := List.getElem?_of_mem hx
        rw [List.getElem?_zip_eq_some] at hk
        exact Or.inl ⟨k, st, x.2, hst, hk.1, hk.2, List.count_pos_iff.1 (by omega)⟩
      · obtain ⟨hc, rfl⟩ := List.mem_replicate.1 he
        exact Or.inr ⟨rfl, st, hst, List.count_pos_iff.1 (by omega)⟩
  · rintro (⟨k, st, ts, h1, h2, h3, h4⟩ | ⟨rfl, st, h1, h2⟩)
    · rw [h1]
      refine List.mem_append_left _ (List.mem_flatMap.2 ⟨(e, ts), List.mem_of_getElem? (List.getElem?_zip_eq_some.2 ⟨h2, h3⟩), ?_⟩)
      exact List.mem_replicate.2 ⟨by have := List.count_pos_iff.2 h4; simp only; omega, rfl⟩
    · rw [h1]
      exact List.mem_append_right _ (List.mem_replicate.2 ⟨by have := List.count_pos_iff.2 h2; omega, rfl⟩)

example : c!"a" ∈ nfaLabels Samples.epsNfa 1 3 ∧ c!"ε" ∈ nfaLabels Samples.epsNfa 1 4 ∧ c!"ε" ∉ nfaLabels Samples.epsNfa 1 3 := by decide

/-- An automaton whose picture can be read: its names are not empty and have no blanks and line ends, its labels are not empty and have
no blanks, bars and line ends, and the labels between different states fit. -/
structure Legible (states : List Draw.State) (ls : Nat → Nat → List Str) : Prop where
  names : ∀ st ∈ states, Namely st.name
  labels : ∀ i j, ∀ e ∈ ls i j, Plain e
  roomy : ∀ w, Longest states w → Roomy ls w

private theorem longest_pos {states : List Draw.State} (hn : ∀ st ∈ states, Namely st.name) {w : Nat} (hw : Longest states w) : 0 < w := by
  obtain ⟨⟨st, h1, h2⟩, _⟩ := hw
  rw [← h2]
  exact namely_len (hn st h1)

private theorem exists_longest {states : List Draw.State} (h : 0 < states.length) : ∃ w, Longest states w := by
  obtain ⟨w, _, h⟩ := widest_longest (states := states) (by rintro rfl; cases h)
  exact ⟨w, h⟩

private theorem read {states states' : List Draw.State} {ls ls' : Nat → Nat → List Str} {art : Str} (hl : Legible states ls)
    (hl' : Legible states' ls') (hi : Inside states.length ls) (hi' : Inside states'.length ls') (h : ShownIn ls states art)
    (h' : ShownIn ls' states' art) :
    states.map (fun st => (st.name, st.accepting)) = states'.map (fun st => (st.name, st.accepting)) ∧
    (∀ i j, i ≠ j → ls i j = ls' i j) ∧ ∀ i, ls i i = [] ↔ ls' i i = [] := by
  obtain ⟨w, gs, placed, levels, h1, h2, h3, h4⟩ := h
  obtain ⟨w', gs', placed', levels', h1', h2', h3', h4'⟩ := h'
  exact picture_determines (scene_of (longest_pos hl.names h1) h2 hi h3 (hl.roomy w h1) hl.labels)
    (scene_of (longest_pos hl'.names h1') h2' hi' h3' (hl'.roomy w' h1') hl'.labels) h1 h1' h2 h2' h3 h3' hl.names hl'.names h4 h4'

private theorem nfa_shown {ord : List GroupedArrow → List GroupedArrow} (ho : ∀ l, (ord l).Perm l) {n : Nfa} (h : n.WF)
    (hl : Legible (n.states.map nfaState) (nfaLabels n)) :
    ∃ art, nfaAsciiArt ord n = some art ∧ ShownIn (nfaLabels n) (n.states.map nfaState) art := by
  obtain ⟨w, hw⟩ := exists_longest (states := n.states.map nfaState) (by rw [List.length_map]; have := h.init_lt; omega)
  exact C57_nfa_partial ord ho n h w hw (hl.roomy w hw)

private theorem dfa_shown {ord : List GroupedArrow → List GroupedArrow} (ho : ∀ l, (ord l).Perm l) {d : Dfa} (h : d.WF)
    (hl : Legible (d.states.map dfaState) (dfaLabels d)) :
    ∃ art, dfaAsciiArt ord d = some art ∧ ShownIn (dfaLabels d) (d.states.map dfaState) art := by
  obtain ⟨w, hw⟩ := exists_longest (states := d.states.map dfaState) (by rw [List.length_map]; have := h.init_lt; omega)
  exact C57_dfa_partial ord ho d h w hw (hl.roomy w hw)

/-- **C65, partial** Legible NFAs with the same picture have the same states, the same labels between different states, and loops at the
same states, whatever the iteration orders were. Missing: the initial state and the labels of loops, which are not shown
(`C65_initial_false`, `C65_loops_false`). -/
theorem C65_nfa_partial (ord ord' : List GroupedArrow → List GroupedArrow) (ho : ∀ l, (ord l).Perm l) (ho' : ∀ l, (ord' l).Perm l)
    (n n' : Nfa) (h : n.WF) (h' : n'.WF) (hl : Legible (n.states.map nfaState) (nfaLabels n))
    (hl' : Legible (n'.states.map nfaState) (nfaLabels n')) (he : nfaAsciiArt ord n = nfaAsciiArt ord' n') :
    n.states.map (fun st => (st.name, st.accepting)) = n'.states.map (fun st => (st.name, st.accepting)) ∧
    (∀ i j, i ≠ j → nfaLabels n i j = nfaLabels n' i j) ∧ ∀ i, nfaLabels n i i = [] ↔ nfaLabels n' i i = [] := by
  obtain ⟨art, h1, h2⟩ := nfa_shown ho h hl
  obtain ⟨art', h1', h2'⟩ := nfa_shown ho' h' hl'
  rw [h1, h1'] at he
  cases he
  obtain ⟨a, b⟩ := read hl hl' (by rw [List.length_map]; exact nfa_inside h) (by rw [List.length_map]; exact nfa_inside h') h2 h2'
  rw [List.map_map, List.map_map] at a
  exact ⟨a, b⟩

private theorem acc_of {α : Type} {f : α → Str × Bool} {a b : List α} (h : a.map f = b.map f) {q : Nat} {x : α} (hx : a[q]? = some x) :
    ∃ y, b[q]? = some y ∧ f y = f x := by
  have := congrArg (fun l => l[q]?) h
  simp only [List.getElem?_map, hx, Option.map_some] at this
  cases hb : b[q]? with
  | none => rw [hb] at this; cases this
  | some y => rw [hb] at this; exact ⟨y, rfl, (Option.some.inj this).symm⟩

private theorem nfa_sub {n n' : Nfa} (hs : n.states.map (fun st => (st.name, st.accepting)) = n'.states.map (fun st => (st.name, st.accepting)))
    (hm : ∀ i e j, n.Move i e j → n'.Move i e j)
    (he : ∀ i j, i ≠ j → (∃ st : NfaState, n.states[i]? = some st ∧ j ∈ st.epsilonTransitions) → ∃ st : NfaState, n'.states[i]? = some st ∧ j ∈ st.epsilonTransitions)
    {q r : Nat} {w : Word} (h : n.Path q w r) : n'.Path q w r := by
  induction h with
  | nil q => exact .nil q
  | @eps q t r w st h1 h2 _ ih =>
    by_cases hqt : q = t
    · rw [hqt]; exact ih
    · obtain ⟨st', h3, h4⟩ := he q t hqt ⟨st, h1, h2⟩
      exact .eps h3 h4 ih
  | @step q i t r e w st ts h1 h2 h3 h4 _ ih =>
    obtain ⟨i', st', ts', k1, k2, k3, k4⟩ := hm q e t ⟨i, st, ts, h1, h2, h3, h4⟩
    exact .step k1 k2 k3 k4 ih

/-- **C65, partial** What is missing is exactly that: legible NFAs with the same picture, the same initial state and the same elements on
loops accept the same words. (`ε` must not be an element; the table parser does not allow it as one.) -/
theorem C65_nfa_lang_partial (ord ord' : List GroupedArrow → List GroupedArrow) (ho : ∀ l, (ord l).Perm l) (ho' : ∀ l, (ord' l).Perm l)
    (n n' : Nfa) (h : n.WF) (h' : n'.WF) (hl : Legible (n.states.map nfaState) (nfaLabels n))
    (hl' : Legible (n'.states.map nfaState) (nfaLabels n')) (he : nfaAsciiArt ord n = nfaAsciiArt ord' n')
    (hε : c!"ε" ∉ n.alphabet) (hε' : c!"ε" ∉ n'.alphabet) (h0 : n.initialState = n'.initialState)
    (hloop : ∀ i e, n.Move i e i ↔ n'.Move i e i) (w : Word) : n.Lang w ↔ n'.Lang w := by
  obtain ⟨a, b, _⟩ := C65_nfa_partial ord ord' ho ho' n n' h h' hl hl' he
  have key : ∀ {m m' : Nfa}, c!"ε" ∉ m.alphabet → c!"ε" ∉ m'.alphabet →
      m.states.map (fun st => (st.name, st.accepting)) = m'.states.map (fun st => (st.name, st.accepting)) →
      (∀ i j, i ≠ j → nfaLabels m i j = nfaLabels m' i j) → (∀ i e, m.Move i e i → m'.Move i e i) → m.initialState = m'.initialState →
      m.Lang w → m'.Lang w := by
    intro m m' hε hε' hs hlab hloop h0 hL
    obtain ⟨q, h1, st, h2, h3⟩ := hL
    have hnε : ∀ {m : Nfa}, c!"ε" ∉ m.alphabet → ∀ {i j}, ¬ m.Move i c!"ε" j := by
      rintro m hm i j ⟨k, st, ts, k1, k2, k3, k4⟩
      exact hm (List.mem_of_getElem? k2)
    refine ⟨q, h0 ▸ nfa_sub hs ?_ ?_ h1, ?_⟩
    · intro i e j hmv
      by_cases hij : i = j
      · subst hij; exact hloop i e hmv
      · have := (C56_nfa_labels m i j e).2 (Or.inl hmv)
        rw [hlab i j hij] at this
        rcases (C56_nfa_labels m' i j e).1 this with h | ⟨rfl, _⟩
        · exact h
        · exact absurd hmv (hnε hε)
    · intro i j hij hep
      have := (C56_nfa_labels m i j c!"ε").2 (Or.inr ⟨rfl, hep⟩)
      rw [hlab i j hij] at this
      rcases (C56_nfa_labels m' i j c!"ε").1 this with h | ⟨_, h⟩
      · exact absurd h (hnε hε')
      · exact h
    · obtain ⟨st', k1, k2⟩ := acc_of hs h2
      exact ⟨st', k1, by rw [← h3]; exact (Prod.mk.inj k2).2⟩
  constructor
  · exact key hε hε' a b (fun i e => (hloop i e).1) h0
  · exact key hε' hε a.symm (fun i j hij => (b i j hij).symm) (fun i e => (hloop i e).2) h0.symm

private theorem dfa_run_of {d d' : Dfa} (h : d.WF) (h' : d'.WF) (ha : SameElems d.alphabet d'.alphabet) (hlen : d.states.length = d'.states.length)
    (hlab : ∀ i j, i ≠ j → dfaLabels d i j = dfaLabels d' i j) {i j : Nat} {e : Str} (hr : d.Run i [e] j) : d'.Run i [e] j := by
  have one : ∀ {x : Dfa}, x.WF → ∀ {i}, i < x.states.length → ∀ {e}, e ∈ x.alphabet → ∃ k, x.Run i [e] k := by
    intro x hx i hi e he
    obtain ⟨k, hk⟩ := List.getElem?_of_mem he
    have hk' : k < x.states[i].transitions.length := by
      rw [hx.row_len _ (List.getElem_mem hi)]; exact (List.getElem?_eq_some_iff.1 hk).1
    exact ⟨_, .cons (List.getElem?_eq_getElem hi) hk (List.getElem?_eq_getElem hk') (.nil _)⟩
  have hi : i < d.states.length ∧ e ∈ d.alphabet := by
    cases hr with
    | cons h1 h2 _ _ => exact ⟨(List.getElem?_eq_some_iff.1 h1).1, List.mem_of_getElem? h2⟩
  have uniq : ∀ {k}, d.Run i [e] k → k = j := by
    intro k hk
    have h1 := (Dfa.run_iff h hi.1).1 hk
    have h2 := (Dfa.run_iff h hi.1).1 hr
    rw [h1] at h2
    exact Option.some.inj h2
  by_cases hij : i = j
  · obtain ⟨k, hk⟩ := one h' (i := i) (by omega) ((ha e).1 hi.2)
    by_cases hik : i = k
    · rw [← hij, hik]; rw [hik] at hk; exact hk
    · have h1 := (C56_dfa_labels d' h' i k e).2 hk
      rw [← hlab i k hik] at h1
      rw [← uniq ((C56_dfa_labels d h i k e).1 h1)]
      exact hk
  · have := (C56_dfa_labels d h i j e).2 hr
    rw [hlab i j hij] at this
    exact (C56_dfa_labels d' h' i j e).1 this

private theorem dfa_runs_of {d d' : Dfa} (h1 : ∀ i e j, d.Run i [e] j → d'.Run i [e] j) {i j : Nat} {w : Word} (hr : d.Run i w j) : d'.Run i w j := by
  induction hr with
  | nil q => exact .nil q
  | cons k1 k2 k3 _ ih =>
    have := h1 _ _ _ (.cons k1 k2 k3 (.nil _))
    cases this with
    | cons m1 m2 m3 m4 => cases m4; exact .cons m1 m2 m3 ih

/-- **C65, partial** Legible DFAs with the same elements and the same picture have the same states and the same runs; with the same
initial state they accept the same words. Missing: the initial state, which is not shown (`C65_initial_false`); the elements, which could
occur on loops only (`C65_alphabet_false`). -/
theorem C65_dfa_partial (ord ord' : List GroupedArrow → List GroupedArrow) (ho : ∀ l, (ord l).Perm l) (ho' : ∀ l, (ord' l).Perm l)
    (d d' : Dfa) (h : d.WF) (h' : d'.WF) (ha : SameElems d.alphabet d'.alphabet)
    (hl : Legible (d.states.map dfaState) (dfaLabels d)) (hl' : Legible (d'.states.map dfaState) (dfaLabels d'))
    (he : dfaAsciiArt ord d = dfaAsciiArt ord' d') :
    d.states.map (fun st => (st.name, st.accepting)) = d'.states.map (fun st => (st.name, st.accepting)) ∧
    (∀ i w j, d.Run i w j ↔ d'.Run i w j) ∧ (d.initialState = d'.initialState → ∀ w, d.Lang w ↔ d'.Lang w) := by
  obtain ⟨art, h1, h2⟩ := dfa_shown ho h hl
  obtain ⟨art', h1', h2'⟩ := dfa_shown ho' h' hl'
  rw [h1, h1'] at he
  cases he
  obtain ⟨a, b, _⟩ := read hl hl' (by rw [List.length_map]; exact dfa_inside h) (by rw [List.length_map]; exact dfa_inside h') h2 h2'
  rw [List.map_map, List.map_map] at a
  have hlen : d.states.length = d'.states.length := by simpa using congrArg List.length a
  have hrun : ∀ i w j, d.Run i w j ↔ d'.Run i w j := fun i w j =>
    ⟨dfa_runs_of fun i e j => dfa_run_of h h' ha hlen b,
      dfa_runs_of fun i e j => dfa_run_of h' h (fun e => (ha e).symm) hlen.symm fun i j hij => (b i j hij).symm⟩
  refine ⟨a, hrun, fun h0 w => ?_⟩
  have hacc : ∀ {x y : Dfa}, x.states.map (fun st => (st.name, st.accepting)) = y.states.map (fun st => (st.name, st.accepting)) →
      ∀ {q}, x.Acc q → y.Acc q := by
    rintro x y hxy q ⟨st, k1, k2⟩
    obtain ⟨st', k3, k4⟩ := acc_of hxy k1
    exact ⟨st', k3, by rw [← k2]; exact (Prod.mk.inj k4).2⟩
  constructor
  · rintro ⟨q, k1, k2⟩
    exact ⟨q, h0 ▸ (hrun _ _ _).1 k1, hacc a k2⟩
  · rintro ⟨q, k1, k2⟩
    exact ⟨q, h0 ▸ (hrun _ _ _).2 k1, hacc a.symm k2⟩

/-! ## Examples and what the conditions exclude -/

private theorem legible_dfa {d : Dfa}
    (hn : ∀ st ∈ d.states, st.name ≠ [] ∧ ∀ c ∈ st.name, c ≠ ' ' ∧ c ≠ '\n')
    (ha : ∀ e ∈ d.alphabet, e ≠ [] ∧ ∀ c ∈ e, c ≠ ' ' ∧ c ≠ '|' ∧ c ≠ '\n')
    (hs : ∀ i < d.states.length, ∀ j < d.states.length, (List.intercalate c!", " (dfaLabels d i j)).length ≤ 5) (h : d.WF) :
    Legible (d.states.map dfaState) (dfaLabels d) := by
  refine ⟨fun st hst => ?_, fun i j e he => ?_, fun w' _ => roomy_of_short w' fun i j => ?_⟩
  · obtain ⟨st', h1, rfl⟩ := List.mem_map.1 hst
    exact hn st' h1
  · have := (C56_dfa_labels d h i j e).1 he
    cases this with
    | cons _ h2 _ _ => exact ha e (List.mem_of_getElem? h2)
  · by_cases hij : dfaLabels d i j = []
    · rw [hij]; simp [List.intercalate]
    · obtain ⟨h1, h2⟩ := dfa_inside h i j hij
      exact hs i h1 j h2

private theorem legible_nfa {n : Nfa}
    (hn : ∀ st ∈ n.states, st.name ≠ [] ∧ ∀ c ∈ st.name, c ≠ ' ' ∧ c ≠ '\n')
    (ha : ∀ e ∈ n.alphabet, e ≠ [] ∧ ∀ c ∈ e, c ≠ ' ' ∧ c ≠ '|' ∧ c ≠ '\n')
    (hs : ∀ i < n.states.length, ∀ j < n.states.length, (List.intercalate c!", " (nfaLabels n i j)).length ≤ 5) (h : n.WF) :
    Legible (n.states.map nfaState) (nfaLabels n) := by
  refine ⟨fun st hst => ?_, fun i j e he => ?_, fun w' _ => roomy_of_short w' fun i j => ?_⟩
  · obtain ⟨st', h1, rfl⟩ := List.mem_map.1 hst
    exact hn st' h1
  · rcases (C56_nfa_labels n i j e).1 he with ⟨_, _, _, _, h2, _⟩ | ⟨rfl, _⟩
    · exact ha e (List.mem_of_getElem? h2)
    · exact ⟨by decide, by decide⟩
  · by_cases hij : nfaLabels n i j = []
    · rw [hij]; simp [List.intercalate]
    · obtain ⟨h1, h2⟩ := nfa_inside h i j hij
      exact hs i h1 j h2

private theorem endsB_legible : Legible (Samples.endsB.states.map dfaState) (dfaLabels Samples.endsB) :=
  legible_dfa (by decide) (by decide) (by decide) Samples.endsB_wf

private theorem startsY_legible : Legible (startsY.states.map dfaState) (dfaLabels startsY) :=
  legible_dfa (by decide) (by decide) (by decide) (Dfa.wf_of_wfB (by decide))

/-- `endsB` and `startsY` have the same picture; they differ in the initial state only. -/
example (i : Nat) (w : Word) (j : Nat) : Samples.endsB.Run i w j ↔ startsY.Run i w j :=
  (C65_dfa_partial List.reverse List.reverse List.reverse_perm List.reverse_perm Samples.endsB startsY Samples.endsB_wf
    (Dfa.wf_of_wfB (by decide)) (fun _ => Iff.rfl) endsB_legible startsY_legible (C65_initial_false List.reverse).2.2.1).2.1 i w j

/-- Three states in a row; with `k` there is an epsilon move from the second to itself besides its loop with `b`, which is the last
element with one alphabet and the first with the other. -/
def inARow (k : Bool) : Nfa :=
  { alphabet := if k then [s 'a', s 'b'] else [s 'b', s 'a'],
    states := [⟨s 'x', true, false, [], if k then [[1], []] else [[], [1]]⟩,
      ⟨s 'y', false, false, if k then [1, 2] else [2], if k then [[], [1]] else [[1], []]⟩, ⟨s 'z', false, true, [], [[], []]⟩],
    initialState := 0 }

private theorem inARow_wf (k : Bool) : (inARow k).WF := by cases k <;> exact Nfa.wf_of_wfB (by decide)

private theorem inARow_legible (k : Bool) : Legible ((inARow k).states.map nfaState) (nfaLabels (inARow k)) := by
  cases k <;> exact legible_nfa (by decide) (by decide) (by decide) (inARow_wf _)

private theorem inARow_same : nfaAsciiArt id (inARow true) = nfaAsciiArt id (inARow false) := by decide +kernel

example : ∀ i j, i ≠ j → nfaLabels (inARow true) i j = nfaLabels (inARow false) i j :=
  (C65_nfa_partial id id (fun _ => .refl _) (fun _ => .refl _) (inARow true) (inARow false) (inARow_wf _) (inARow_wf _)
    (inARow_legible _) (inARow_legible _) inARow_same).2.1

/-- The loops with elements, for the example. -/
private theorem inARow_loop (k : Bool) (i : Nat) (e : Str) : (inARow k).Move i e i ↔ i = 1 ∧ e = s 'b' := by
  constructor
  · rintro ⟨x, st, ts, h1, h2, h3, h4⟩
    have hi : i < 3 := (List.getElem?_eq_some_iff.1 h1).1
    have hx : x < 2 := by have := (List.getElem?_eq_some_iff.1 h2).1; cases k <;> exact this
    revert h1 h2 h3 h4
    interval_cases i <;> interval_cases x <;> cases k <;> intro h1 h2 h3 h4 <;> cases h1 <;> cases h2 <;> cases h3 <;> revert h4 <;> decide
  · rintro ⟨rfl, rfl⟩
    cases k
    · exact ⟨0, _, _, rfl, rfl, rfl, by decide⟩
    · exact ⟨1, _, _, rfl, rfl, rfl, by decide⟩

example (w : Word) : (inARow true).Lang w ↔ (inARow false).Lang w :=
  C65_nfa_lang_partial id id (fun _ => .refl _) (fun _ => .refl _) (inARow true) (inARow false) (inARow_wf _) (inARow_wf _)
    (inARow_legible _) (inARow_legible _) inARow_same (by decide) (by decide) rfl
    (fun i e => (inARow_loop true i e).trans (inARow_loop false i e).symm) w

/-- One state with a loop for its only element. -/
def oneLetter (e : Str) : Dfa := { alphabet := [e], states := [⟨s 'x', true, true, [0]⟩], initialState := 0 }

/-- **C65 does not hold** Nor are the elements of a DFA determined, even if it is legible and the initial state is known. -/
theorem C65_alphabet_false (ord : List GroupedArrow → List GroupedArrow) (ho : ∀ l, (ord l).Perm l) (e : Str) :
    (oneLetter e).WF ∧ dfaAsciiArt ord (oneLetter e) = some (c!"     ->-      \n" ++ c!"     | |      \n" ++ c!"-> (( x )) ") ∧
    ∀ e', (oneLetter e).Lang [e'] ↔ e' = e := by
  have h1 : ∀ g : GroupedArrow, ord [g] = [g] := fun g => List.perm_singleton.1 (ho [g])
  refine ⟨⟨by simp [oneLetter], by simp [oneLetter], by simp [oneLetter], by simp [oneLetter], by simp [oneLetter], ?_⟩, ?_, fun e' => ⟨?_, ?_⟩⟩
  · intro i st h
    cases i with
    | zero => cases h; simp [oneLetter]
    | succ i => cases h
  · have : dfaToArrows (oneLetter e) = some [⟨0, 0, .spot, e⟩] := rfl
    unfold dfaAsciiArt
    simp only [this, Option.bind_eq_bind, Option.bind_some, asciiArt, layout, groupArrows, List.foldl_cons, List.foldl_nil, addArrow, h1]
    rfl
  · rintro ⟨q, hr, _⟩
    cases hr with
    | @cons _ i _ _ _ _ _ h1 h2 _ _ =>
      cases i with
      | zero => cases h2; rfl
      | succ i => cases h2
  · rintro rfl
    exact ⟨0, .cons (i := 0) rfl rfl rfl (.nil _), _, rfl, rfl⟩

/-- From `x` to `z` with one of two elements; an arrow from `y` to `u` is drawn above. -/
def barred (k : Bool) : Nfa :=
  { alphabet := [c!"b", c!"abcdefg", c!"abcdefg|"],
    states := [⟨s 'x', true, false, [], [[], if k then [2] else [], if k then [] else [2]]⟩, ⟨s 'y', false, false, [], [[3], [], []]⟩,
      ⟨s 'z', false, true, [], [[], [], []]⟩, ⟨s 'u', false, false, [], [[], [], []]⟩],
    initialState := 0 }

/-- **C65 does not hold** A bar at the end of a label may be taken for a part of another arrow, so labels must not have bars: these two
have the same picture, the same initial state and no loops, but different languages. -/
theorem C65_bars_false (k : Bool) : (barred k).WF ∧ nfaAsciiArt id (barred k) = some (
    c!"               -->------------        \n" ++
    c!"               |b            |        \n" ++
    c!"       -->------------       |        \n" ++
    c!"       |abcdefg|     |       |        \n" ++
    c!"-> (  x  ) (  y  ) (( z )) (  u  ) ") ∧ ((barred k).Lang [c!"abcdefg|"] ↔ k = false) := by
  refine ⟨by cases k <;> exact Nfa.wf_of_wfB (by decide), by cases k <;> decide +kernel, ?_⟩
  rw [← Nfa.accepts_iff (by cases k <;> exact Nfa.wf_of_wfB (by decide))]
  cases k <;> decide +kernel

/-! ## What does not depend on the order -/

/-- Two pictures show the same states and labels, and their last lines are the same. -/
def SameUpToLevels (ls : Nat → Nat → List Str) (states : List Draw.State) (art art' : Str) : Prop :=
  ShownIn ls states art ∧ ShownIn ls states art' ∧
  ∃ last lines lines', art = List.intercalate c!"\n" (lines ++ [last]) ∧ art' = List.intercalate c!"\n" (lines' ++ [last]) ∧
    ∃ w, Longest states w ∧ StateLine w states last

private theorem same_up_to {ls : Nat → Nat → List Str} {states : List Draw.State} {art art' : Str} (h : ShownIn ls states art)
    (h' : ShownIn ls states art') : SameUpToLevels ls states art art' := by
  refine ⟨h, h', ?_⟩
  obtain ⟨w, gs, placed, levels, h1, h2, h3, lines, last, h4, h5, h6⟩ := h
  obtain ⟨w', gs', placed', levels', h1', h2', h3', lines', last', h4', h5', h6'⟩ := h'
  obtain rfl := h1.unique h1'
  obtain rfl := stateLine_unique h5 h5' h1.2
  exact ⟨last, lines, lines', h6, h6', w, h1, h5⟩

/-- **C64, partial** If the labels fit, two pictures of a valid DFA show the same arrows and have the same last line. Missing: the levels
on which the arrows are (`C64_order_false`). -/
theorem C64_dfa_partial (ord ord' : List GroupedArrow → List GroupedArrow) (ho : ∀ l, (ord l).Perm l) (ho' : ∀ l, (ord' l).Perm l)
    (d : Dfa) (h : d.WF) (w : Nat) (hw : Longest (d.states.map dfaState) w) (hf : Roomy (dfaLabels d) w) :
    ∃ art art', dfaAsciiArt ord d = some art ∧ dfaAsciiArt ord' d = some art' ∧
      SameUpToLevels (dfaLabels d) (d.states.map dfaState) art art' := by
  obtain ⟨art, h1, h2⟩ := C57_dfa_partial ord ho d h w hw hf
  obtain ⟨art', h1', h2'⟩ := C57_dfa_partial ord' ho' d h w hw hf
  exact ⟨art, art', h1, h1', same_up_to h2 h2'⟩

/-- **C64, partial** The same for NFAs. -/
theorem C64_nfa_partial (ord ord' : List GroupedArrow → List GroupedArrow) (ho : ∀ l, (ord l).Perm l) (ho' : ∀ l, (ord' l).Perm l)
    (n : Nfa) (h : n.WF) (w : Nat) (hw : Longest (n.states.map nfaState) w) (hf : Roomy (nfaLabels n) w) :
    ∃ art art', nfaAsciiArt ord n = some art ∧ nfaAsciiArt ord' n = some art' ∧
      SameUpToLevels (nfaLabels n) (n.states.map nfaState) art art' := by
  obtain ⟨art, h1, h2⟩ := C57_nfa_partial ord ho n h w hw hf
  obtain ⟨art', h1', h2'⟩ := C57_nfa_partial ord' ho' n h w hw hf
  exact ⟨art, art', h1, h1', same_up_to h2 h2'⟩

/-- Two orders, two pictures of the same NFA. -/
example : nfaAsciiArt id (inARow true) ≠ nfaAsciiArt List.reverse (inARow true) ∧
    ∃ art art', nfaAsciiArt id (inARow true) = some art ∧ nfaAsciiArt List.reverse (inARow true) = some art' ∧
      SameUpToLevels (nfaLabels (inARow true)) ((inARow true).states.map nfaState) art art' :=
  ⟨by decide +kernel, C64_nfa_partial id List.reverse (fun _ => .refl _) List.reverse_perm (inARow true) (inARow_wf _) 1
    (longest_of (by decide)) ((inARow_legible true).roomy 1 (longest_of (by decide)))⟩

example : dfaAsciiArt id Samples.endsB ≠ dfaAsciiArt List.reverse Samples.endsB ∧
    ∃ art art', dfaAsciiArt id Samples.endsB = some art ∧ dfaAsciiArt List.reverse Samples.endsB = some art' ∧
      SameUpToLevels (dfaLabels Samples.endsB) (Samples.endsB.states.map dfaState) art art' :=
  ⟨by decide +kernel, C64_dfa_partial id List.reverse (fun _ => .refl _) List.reverse_perm Samples.endsB Samples.endsB_wf 1
    (longest_of (by decide)) (endsB_legible.roomy 1 (longest_of (by decide)))⟩

/-- Of any two pairs of states with labels, the further one to the right of the first pair is not that of the second. -/
def DistinctEnds (ls : Nat → Nat → List Str) : Prop :=
  ∀ i j i' j', ls i j ≠ [] → ls i' j' ≠ [] → max i j = max i' j' → i = i' ∧ j = j'

/-- **C64, partial** If no two arrows have the same right end, ASCII picture and drawing of a valid DFA are determined. Missing: arrows with
the same right end (`C64_order_false`). -/
theorem C64_dfa_distinct_partial (o : Options) (ord ord' : List GroupedArrow → List GroupedArrow) (ho : ∀ l, (ord l).Perm l)
    (ho' : ∀ l, (ord' l).Perm l) (d : Dfa) (h : d.WF) (hd : DistinctEnds (dfaLabels d)) :
    dfaAsciiArt ord d = dfaAsciiArt ord' d ∧ drawDfa o ord d = drawDfa o ord' d := by
  obtain ⟨as, h1, h2⟩ := dfa_groups ord ho h
  have := layout_order ho ho' h2 hd
  constructor
  · unfold dfaAsciiArt asciiArt
    simp only [h1, Option.bind_eq_bind, Option.bind_some, this]
  · unfold drawDfa draw
    simp only [h1, Option.bind_eq_bind, Option.bind_some, this]

/-- **C64, partial** The same for NFAs. -/
theorem C64_nfa_distinct_partial (o : Options) (ord ord' : List GroupedArrow → List GroupedArrow) (ho : ∀ l, (ord l).Perm l)
    (ho' : ∀ l, (ord' l).Perm l) (n : Nfa) (h : n.WF) (hd : DistinctEnds (nfaLabels n)) :
    nfaAsciiArt ord n = nfaAsciiArt ord' n ∧ drawNfa o ord n = drawNfa o ord' n := by
  obtain ⟨as, h1, h2⟩ := nfa_groups ord ho h
  have := layout_order ho ho' h2 hd
  constructor
  · unfold nfaAsciiArt asciiArt
    simp only [h1, Option.bind_eq_bind, Option.bind_some, this]
  · unfold drawNfa draw
    simp only [h1, Option.bind_eq_bind, Option.bind_some, this]

private theorem distinct_of {n : Nat} {ls : Nat → Nat → List Str} (hi : Inside n ls)
    (h : ∀ i < n, ∀ j < n, ∀ i' < n, ∀ j' < n, (ls i j).isEmpty || (ls i' j').isEmpty || max i j != max i' j' || (i == i' && j == j')) : DistinctEnds ls := by
  intro i j i' j' h1 h2 h3
  obtain ⟨a, b⟩ := hi i j h1
  obtain ⟨a', b'⟩ := hi i' j' h2
  have := h i a j b i' a' j' b'
  simp only [Bool.or_eq_true, List.isEmpty_iff, bne_iff_ne, Bool.and_eq_true, beq_iff_eq] at this
  rcases this with ((h | h) | h) | h
  · exact absurd h h1
  · exact absurd h h2
  · exact absurd h3 h
  · exact h

example (ord : List GroupedArrow → List GroupedArrow) (ho : ∀ l, (ord l).Perm l) (k : Bool) :
    nfaAsciiArt ord (barred k) = nfaAsciiArt id (barred k) :=
  (C64_nfa_distinct_partial Options.default ord id ho (fun _ => .refl _) (barred k) (C65_bars_false k).1
    (distinct_of (nfa_inside (C65_bars_false k).1) (by cases k <;> decide +kernel))).1

/-- Two states; all transitions lead to the first. -/
def allBack : Dfa := { alphabet := [s 'a', s 'b'], states := [⟨s 'x', true, false, [0, 0]⟩, ⟨s 'y', false, true, [0, 0]⟩], initialState := 0 }

example (ord : List GroupedArrow → List GroupedArrow) (ho : ∀ l, (ord l).Perm l) :
    dfaAsciiArt ord allBack = some (
      c!"       -----<-        \n" ++
      c!"       |a, b |        \n" ++
      c!"     ->-     |        \n" ++
      c!"     | |     |        \n" ++
      c!"-> (  x  ) (( y )) ") :=
  (C64_dfa_distinct_partial Options.default ord id ho (fun _ => .refl _) allBack (Dfa.wf_of_wfB (by decide))
    (distinct_of (dfa_inside (Dfa.wf_of_wfB (by decide))) (by decide +kernel))).1.trans (by decide +kernel)

end Dandy
