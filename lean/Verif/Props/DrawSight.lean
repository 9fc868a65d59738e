import Verif.Proofs.DrawSight
import Verif.Props.Backends
import Verif.Props.DrawDecode
/-! # C87: the drawing determines the automaton -/

namespace Dandy
open Draw
open Samples (s)

private theorem drawn_nfa {o : Options} (hs : o.Sensible) {ord : List GroupedArrow → List GroupedArrow} (ho : ∀ l, (ord l).Perm l) {n : Nfa}
    (h : n.WF) : ∃ ops placed levels, drawNfa o ord n = some ops ∧ Drawing o (nfaLabels n) (n.states.map nfaState) placed levels ops := by
  obtain ⟨ops, gs, placed, levels, h1, h2, h3, h4, h5⟩ := C66_nfa_lines o ord ho n h
  exact ⟨ops, placed, levels, h1, h5 hs, h4, ⟨gs, h2, h3⟩, by rw [List.length_map]; have := h.init_lt; omega⟩

private theorem drawn_dfa {o : Options} (hs : o.Sensible) {ord : List GroupedArrow → List GroupedArrow} (ho : ∀ l, (ord l).Perm l) {d : Dfa}
    (h : d.WF) : ∃ ops placed levels, drawDfa o ord d = some ops ∧ Drawing o (dfaLabels d) (d.states.map dfaState) placed levels ops := by
  obtain ⟨gs, placed, levels, h1, h2, h3⟩ := drawDfa_raw o ord ho h
  exact ⟨_, placed, levels, h1, drawnOn hs (d.states.map dfaState) h2.oriented h3, raw_lines h3.below (placement_oriented h2 h3),
    ⟨gs, h2, h3⟩, by rw [List.length_map]; have := h.init_lt; omega⟩

private theorem get_of {α β : Type} {f : α → β} {a b : List α} (h : a.map f = b.map f) {q : Nat} {x : α} (hx : a[q]? = some x) :
    ∃ y, b[q]? = some y ∧ f y = f x := by
  have := congrArg (fun l => l[q]?) h
  simp only [List.getElem?_map, hx, Option.map_some] at this
  cases hb : b[q]? with
  | none => rw [hb] at this; cases this
  | some y => rw [hb] at this; exact ⟨y, rfl, (Option.some.inj this).symm⟩

private theorem nfa_sub {n n' : Nfa} (hs : n.states.map (fun st => (st.name, st.accepting, st.initial)) = n'.states.map (fun st => (st.name, st.accepting, st.initial)))
    (h0 : n.initialState = n'.initialState)
    (hl : ∀ i j, nfaLabels n i j = nfaLabels n' i j) (hε : c!"ε" ∉ n.alphabet) (hε' : c!"ε" ∉ n'.alphabet) {w : Word} (hw : n.Lang w) : n'.Lang w := by
  obtain ⟨q, hp, st, h1, h2⟩ := hw
  have path : ∀ {q w r}, n.Path q w r → n'.Path q w r := by
    intro q w r h
    induction h with
    | nil q => exact .nil q
    | @eps q t r w st h1 h2 _ ih =>
      have := (C56_nfa_labels n q t c!"ε").2 (Or.inr ⟨rfl, st, h1, h2⟩)
      rw [hl] at this
      rcases (C56_nfa_labels n' q t c!"ε").1 this with ⟨k, _, _, _, h, _⟩ | ⟨_, st', h3, h4⟩
      · exact absurd (List.mem_of_getElem? h) hε'
      · exact .eps h3 h4 ih
    | @step q i t r e w st ts h1 h2 h3 h4 _ ih =>
      have := (C56_nfa_labels n q t e).2 (Or.inl ⟨i, st, ts, h1, h2, h3, h4⟩)
      rw [hl] at this
      rcases (C56_nfa_labels n' q t e).1 this with ⟨k, st', ts', k1, k2, k3, k4⟩ | ⟨rfl, _⟩
      · exact .step k1 k2 k3 k4 ih
      · exact absurd (List.mem_of_getElem? h2) hε
  obtain ⟨st', k1, k2⟩ := get_of hs h1
  exact ⟨q, h0 ▸ path hp, st', k1, by rw [← h2]; exact (Prod.mk.inj (Prod.mk.inj k2).2).1⟩

/-- **C87** Two valid NFAs whose drawings look the same have the same states and the same labels between any two states, and accept the
same words, if no element has a blank or is `ε`. -/
theorem C87_nfa (o : Options) (ht : o.Telling) (ord ord' : List GroupedArrow → List GroupedArrow) (ho : ∀ l, (ord l).Perm l)
    (ho' : ∀ l, (ord' l).Perm l) (n n' : Nfa) (h : n.WF) (h' : n'.WF) (hb : ∀ e ∈ n.alphabet, ' ' ∉ e) (hb' : ∀ e ∈ n'.alphabet, ' ' ∉ e) :
    ∃ ops ops', drawNfa o ord n = some ops ∧ drawNfa o ord' n' = some ops' ∧ (SameSight ops ops' →
      n.states.map (fun st => (st.name, st.accepting, st.initial)) = n'.states.map (fun st => (st.name, st.accepting, st.initial)) ∧
      n.initialState = n'.initialState ∧ (∀ i j, nfaLabels n i j = nfaLabels n' i j) ∧
      (c!"ε" ∉ n.alphabet → c!"ε" ∉ n'.alphabet → ∀ w, n.Lang w ↔ n'.Lang w)) := by
  obtain ⟨ops, P, levels, h1, h2⟩ := drawn_nfa ht.sensible ho h
  obtain ⟨ops', P', levels', h1', h2'⟩ := drawn_nfa ht.sensible ho' h'
  refine ⟨ops, ops', h1, h1', fun he => ?_⟩
  have blanks : ∀ {m : Nfa}, (∀ e ∈ m.alphabet, ' ' ∉ e) → ∀ i j, ∀ e ∈ nfaLabels m i j, ' ' ∉ e := by
    intro m hm i j e hem
    rcases (C56_nfa_labels m i j e).1 hem with ⟨k, _, _, _, h, _⟩ | ⟨rfl, _⟩
    · exact hm e (List.mem_of_getElem? h)
    · decide
  obtain ⟨a, b⟩ := sight ht h2 h2' (blanks hb) (blanks hb') he
  rw [List.map_map, List.map_map] at a
  have a' : n.states.map (fun st => (st.name, st.accepting, st.initial)) = n'.states.map (fun st => (st.name, st.accepting, st.initial)) := a
  have h0 : n.initialState = n'.initialState := by
    obtain ⟨y, k1, k2⟩ := get_of a' (List.getElem?_eq_getElem h.init_lt)
    refine (h'.init_flag _ y k1).1 ?_
    rw [(Prod.mk.inj (Prod.mk.inj k2).2).2]
    exact (h.init_flag _ _ (List.getElem?_eq_getElem h.init_lt)).2 rfl
  exact ⟨a', h0, b, fun e e' w => ⟨nfa_sub a' h0 b e e', nfa_sub a'.symm h0.symm (fun i j => (b i j).symm) e' e⟩⟩

private theorem dfa_runs {d d' : Dfa} (h : d.WF) (h' : d'.WF) (hl : ∀ i j, dfaLabels d i j = dfaLabels d' i j) {i j : Nat} {w : Word}
    (hr : d.Run i w j) : d'.Run i w j := by
  induction hr with
  | nil q => exact .nil q
  | @cons q k t r e w st k1 k2 k3 _ ih =>
    have := (C56_dfa_labels d h q t e).2 (.cons k1 k2 k3 (.nil _))
    rw [hl] at this
    cases (C56_dfa_labels d' h' q t e).1 this with
    | cons m1 m2 m3 m4 => cases m4; exact .cons m1 m2 m3 ih

/-- **C87** Two valid DFAs whose drawings look the same have the same states, the same elements, the same runs and the same language, if no
element has a blank. -/
theorem C87_dfa (o : Options) (ht : o.Telling) (ord ord' : List GroupedArrow → List GroupedArrow) (ho : ∀ l, (ord l).Perm l)
    (ho' : ∀ l, (ord' l).Perm l) (d d' : Dfa) (h : d.WF) (h' : d'.WF) (hb : ∀ e ∈ d.alphabet, ' ' ∉ e) (hb' : ∀ e ∈ d'.alphabet, ' ' ∉ e) :
    ∃ ops ops', drawDfa o ord d = some ops ∧ drawDfa o ord' d' = some ops' ∧ (SameSight ops ops' →
      d.states.map (fun st => (st.name, st.accepting, st.initial)) = d'.states.map (fun st => (st.name, st.accepting, st.initial)) ∧
      d.initialState = d'.initialState ∧ SameElems d.alphabet d'.alphabet ∧ (∀ i w j, d.Run i w j ↔ d'.Run i w j) ∧
      ∀ w, d.Lang w ↔ d'.Lang w) := by
  obtain ⟨ops, P, levels, h1, h2⟩ := drawn_dfa ht.sensible ho h
  obtain ⟨ops', P', levels', h1', h2'⟩ := drawn_dfa ht.sensible ho' h'
  refine ⟨ops, ops', h1, h1', fun he => ?_⟩
  have blanks : ∀ {m : Dfa}, m.WF → (∀ e ∈ m.alphabet, ' ' ∉ e) → ∀ i j, ∀ e ∈ dfaLabels m i j, ' ' ∉ e := by
    intro m hw hm i j e hem
    cases (C56_dfa_labels m hw i j e).1 hem with
    | cons _ m2 _ _ => exact hm e (List.mem_of_getElem? m2)
  obtain ⟨a, b⟩ := sight ht h2 h2' (blanks h hb) (blanks h' hb') he
  rw [List.map_map, List.map_map] at a
  have a' : d.states.map (fun st => (st.name, st.accepting, st.initial)) = d'.states.map (fun st => (st.name, st.accepting, st.initial)) := a
  have h0 : d.initialState = d'.initialState := by
    obtain ⟨y, k1, k2⟩ := get_of a' (List.getElem?_eq_getElem h.init_lt)
    refine (h'.init_flag _ y k1).1 ?_
    rw [(Prod.mk.inj (Prod.mk.inj k2).2).2]
    exact (h.init_flag _ _ (List.getElem?_eq_getElem h.init_lt)).2 rfl
  have elems : ∀ {m m' : Dfa}, m.WF → m'.WF → (∀ i j, dfaLabels m i j = dfaLabels m' i j) → ∀ e ∈ m.alphabet, e ∈ m'.alphabet := by
    intro m m' hm hm' hl e hem
    obtain ⟨k, hk⟩ := List.getElem?_of_mem hem
    have hk' : k < (m.states[m.initialState]'hm.init_lt).transitions.length := by
      rw [hm.row_len _ (List.getElem_mem hm.init_lt)]; exact (List.getElem?_eq_some_iff.1 hk).1
    have hr := dfa_runs hm hm' hl (.cons (List.getElem?_eq_getElem hm.init_lt) hk (List.getElem?_eq_getElem hk') (.nil _))
    cases hr with
    | cons _ m2 _ _ => exact List.mem_of_getElem? m2
  have acc : ∀ {m m' : Dfa}, m.states.map (fun st => (st.name, st.accepting, st.initial)) = m'.states.map (fun st => (st.name, st.accepting, st.initial)) →
      ∀ {q}, m.Acc q → m'.Acc q := by
    rintro m m' hm q ⟨st, k1, k2⟩
    obtain ⟨st', k3, k4⟩ := get_of hm k1
    exact ⟨st', k3, by rw [← k2]; exact (Prod.mk.inj (Prod.mk.inj k4).2).1⟩
  have runs : ∀ i w j, d.Run i w j ↔ d'.Run i w j := fun i w j => ⟨dfa_runs h h' b, dfa_runs h' h fun i j => (b i j).symm⟩
  refine ⟨a', h0, fun e => ⟨elems h h' b e, elems h' h (fun i j => (b i j).symm) e⟩, runs, fun w => ⟨?_, ?_⟩⟩
  · rintro ⟨q, k1, k2⟩
    exact ⟨q, h0 ▸ (runs _ _ _).1 k1, acc a' k2⟩
  · rintro ⟨q, k1, k2⟩
    exact ⟨q, h0 ▸ (runs _ _ _).2 k1, acc a'.symm k2⟩

/-- **C87** The default sizes satisfy the condition. -/
theorem C87_default : Options.default.Telling :=
  ⟨default_sensible, rfl, by decide +kernel, by decide +kernel, by decide +kernel⟩

/-- `endsB` with the elements in the other order. -/
def endsB' : Dfa :=
  { alphabet := Samples.endsB.alphabet.reverse,
    states := Samples.endsB.states.map (fun st => { st with transitions := st.transitions.reverse }),
    initialState := Samples.endsB.initialState }

private theorem sameSight_of {a b : Option (List Op)} {ops ops' : List Op} (ha : a = some ops) (hb : b = some ops')
    (h : (a.bind fun x => b.map fun y => decide (circles x ⊆ circles y ∧ circles y ⊆ circles x ∧ texts x ⊆ texts y ∧ texts y ⊆ texts x ∧
      lines x ⊆ lines y ∧ lines y ⊆ lines x)) = some true) : SameSight ops ops' := by
  subst ha hb
  simp only [Option.bind_some, Option.map_some, Option.some.injEq, decide_eq_true_eq] at h
  obtain ⟨h1, h2, h3, h4, h5, h6⟩ := h
  exact ⟨fun x => ⟨fun h => h1 h, fun h => h2 h⟩, fun x => ⟨fun h => h3 h, fun h => h4 h⟩, fun x => ⟨fun h => h5 h, fun h => h6 h⟩⟩

/-- The elements come in another order, but the drawing looks the same. -/
example (w : Word) : Samples.endsB.Lang w ↔ endsB'.Lang w := by
  obtain ⟨ops, ops', h1, h2, h3⟩ := C87_dfa Options.default C87_default id id (fun _ => .refl _) (fun _ => .refl _) Samples.endsB endsB'
    Samples.endsB_wf (Dfa.wf_of_wfB (by decide)) (by decide) (by decide)
  exact (h3 (sameSight_of h1 h2 (by decide +kernel))).2.2.2.2 w

/-- Two states with an arrow to the right and one to the left; `k` exchanges the labels. -/
def thereAndBack (k : Bool) : Nfa :=
  { alphabet := [s 'a', s 'b'], states := [⟨s 'x', true, false, [], if k then [[1], []] else [[], [1]]⟩,
      ⟨s 'y', false, true, [], if k then [[], [0]] else [[0], []]⟩], initialState := 0 }

/-- The elements of `thereAndBack true` in the other order. -/
example (w : Word) : (thereAndBack true).Lang w ↔ ({ thereAndBack false with alphabet := [s 'b', s 'a'] } : Nfa).Lang w := by
  obtain ⟨ops, ops', h1, h2, h3⟩ := C87_nfa Options.default C87_default id id (fun _ => .refl _) (fun _ => .refl _)
    (thereAndBack true) { thereAndBack false with alphabet := [s 'b', s 'a'] } (Nfa.wf_of_wfB (by decide)) (Nfa.wf_of_wfB (by decide)) (by decide) (by decide)
  exact (h3 (sameSight_of h1 h2 (by decide +kernel))).2.2.2 (by decide) (by decide) w

/-- **C87 does not hold without tips in the middle** With tips at the ends only it cannot be seen which of two arrows between the same states
goes where: for some orders these two drawings look the same, but the languages are different. -/
theorem C87_end_tips_false : (∀ k, (thereAndBack k).WF) ∧
    (∃ ops ops', drawNfa { Options.default with middleArrow := false } id (thereAndBack true) = some ops ∧
      drawNfa { Options.default with middleArrow := false } List.reverse (thereAndBack false) = some ops' ∧ SameSight ops ops') ∧
    (thereAndBack true).Lang [s 'a'] ∧ ¬ (thereAndBack false).Lang [s 'a'] := by
  have hwf : ∀ k, (thereAndBack k).WF := fun k => by cases k <;> exact Nfa.wf_of_wfB (by decide)
  refine ⟨hwf, ?_, ?_, ?_⟩
  · obtain ⟨gs, P, l, h1, _⟩ := drawNfa_raw { Options.default with middleArrow := false } id (fun _ => .refl _) (hwf true)
    obtain ⟨gs', P', l', h1', _⟩ := drawNfa_raw { Options.default with middleArrow := false } List.reverse List.reverse_perm (hwf false)
    exact ⟨_, _, h1, h1', sameSight_of h1 h1' (by decide +kernel)⟩
  · rw [← Nfa.accepts_iff (hwf _)]; decide +kernel
  · rw [← Nfa.accepts_iff (hwf _)]; decide +kernel

/-- From one state to another with one element or with two. -/
def oneOrTwo (k : Bool) : Nfa :=
  { alphabet := [s 'a', s 'b', c!"a, b"], states := [⟨s 'x', true, false, [], if k then [[1], [1], []] else [[], [], [1]]⟩,
      ⟨s 'y', false, true, [], [[], [], []]⟩], initialState := 0 }

/-- **C87 does not hold for elements with blanks** An element may look like two. -/
theorem C87_blanks_false : (∀ k, (oneOrTwo k).WF) ∧ drawNfa Options.default id (oneOrTwo true) = drawNfa Options.default id (oneOrTwo false) ∧
    (oneOrTwo true).Lang [s 'a'] ∧ ¬ (oneOrTwo false).Lang [s 'a'] := by
  have hwf : ∀ k, (oneOrTwo k).WF := fun k => by cases k <;> exact Nfa.wf_of_wfB (by decide)
  refine ⟨hwf, by decide +kernel, ?_, ?_⟩
  · rw [← Nfa.accepts_iff (hwf _)]; decide +kernel
  · rw [← Nfa.accepts_iff (hwf _)]; decide +kernel

/-- With a step that is an epsilon move or reads `ε`. -/
def epsOrElem (k : Bool) : Nfa :=
  { alphabet := [c!"ε"], states := [⟨s 'x', true, false, if k then [1] else [], if k then [[]] else [[1]]⟩, ⟨s 'y', false, true, [], [[]]⟩],
    initialState := 0 }

/-- **C87 does not hold for `ε` as an element** It looks like an epsilon move. -/
theorem C87_eps_false : (∀ k, (epsOrElem k).WF) ∧ drawNfa Options.default id (epsOrElem true) = drawNfa Options.default id (epsOrElem false) ∧
    (epsOrElem true).Lang [] ∧ ¬ (epsOrElem false).Lang [] := by
  have hwf : ∀ k, (epsOrElem k).WF := fun k => by cases k <;> exact Nfa.wf_of_wfB (by decide)
  refine ⟨hwf, by decide +kernel, ?_, ?_⟩
  · rw [← Nfa.accepts_iff (hwf _)]; decide +kernel
  · rw [← Nfa.accepts_iff (hwf _)]; decide +kernel

end Dandy
