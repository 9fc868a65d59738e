import Verif.Spec.Cleanup
import Verif.Proofs.NfaEps
import Verif.Proofs.DfaQuot
/-! # Cleaning up: lemmas -/

namespace Dandy

namespace Nfa
variable {n m : Nfa} {D : List Nat}

theorem move_iff {q t : Nat} {e : Str} : n.Move q e t ↔ ∃ c : Nat, n.alphabet[c]? = some e ∧ t ∈ n.tr q c := by
  unfold Move
  simp only [mem_tr]
  constructor
  · rintro ⟨i, s, ts, h1, h2, h3, h4⟩; exact ⟨i, h2, s, ts, h1, h3, h4⟩
  · rintro ⟨i, h2, s, ts, h1, h3, h4⟩; exact ⟨i, s, ts, h1, h2, h3, h4⟩

theorem reads_iff {q t : Nat} {e : Str} :
    n.Reads q e t ↔ ∃ c u : Nat, n.alphabet[c]? = some e ∧ u ∈ n.tr q c ∧ n.EpsR u t := by
  unfold Reads
  simp only [move_iff, path_nil_iff]
  constructor
  · rintro ⟨u, ⟨c, h1, h2⟩, h3⟩; exact ⟨c, u, h1, h2, h3⟩
  · rintro ⟨c, u, h1, h2, h3⟩; exact ⟨u, ⟨c, h1, h2⟩, h3⟩

theorem tr_elem (hn : n.WF) {q c t : Nat} (h : t ∈ n.tr q c) : ∃ e, n.alphabet[c]? = some e := by
  obtain ⟨s, ts, h1, h2, _⟩ := mem_tr.1 h
  have h3 := lt_of_getElem? h2
  rw [hn.row_len s (List.mem_of_getElem? h1)] at h3
  exact ⟨_, List.getElem?_eq_getElem h3⟩

theorem dead_iff (hn : n.WF) {b : Bool} {q : Nat} : n.Dead b q ↔ n.DeadR b q := by
  constructor
  · intro h
    induction h with
    | mk q s h1 h2 h3 _ ih =>
      have hs := state_of_getElem? h1
      refine .mk q (lt_of_getElem? h1) (by rw [hs]; exact h2) ?_ ?_
      · intro hb hq
        have := (hn.init_flag q s h1).2 hq
        rw [h3 hb] at this
        cases this
      · intro c u t hu ht
        obtain ⟨e, he⟩ := tr_elem hn hu
        exact ih e t (reads_iff.2 ⟨c, u, he, hu, ht⟩)
  · intro h
    induction h with
    | mk q h1 h2 h3 _ ih =>
      refine .mk q (n.state q) (getElem?_state h1) h2 ?_ ?_
      · intro hb
        rw [Bool.eq_false_iff]
        exact fun hi => h3 hb ((hn.init_flag q _ (getElem?_state h1)).1 hi)
      · intro e t ht
        obtain ⟨c, u, _, hu, hr⟩ := reads_iff.1 ht
        exact ih c u t hu hr

/-- The removed states are exactly the dead ones. -/
theorem ElimFacts.mem_dead (h : ElimFacts n m D) (hx : ElimExact n m D) {q : Nat} :
    (m.states.length = n.states.length → (q ∈ D ↔ n.DeadR false q)) ∧
    (m.states.length = n.states.length + 1 → (q ∈ D ↔ n.DeadR true q)) := by
  have key : ∀ b, (b = false ∨ m.initialState = n.states.length) → (b = true ∨ m.initialState = n.initialState) → ∀ q, n.DeadR b q → q ∈ D := by
    intro b hb1 hb2 q hq
    induction hq with
    | mk q h1 h2 h3 _ ih =>
      by_contra hc
      rcases h.live q h1 hc with g | g | ⟨c, t, g⟩
      · rw [h2] at g; cases g
      · rcases hb1 with hb | hb
        · rcases hb2 with hb' | hb'
          · rw [hb] at hb'; cases hb'
          · exact h3 hb (g.trans hb')
        · omega
      · obtain ⟨g1, u, g2, g3⟩ := ((h.old q h1).2.2.2.2 c t).1 g
        exact g1 (ih c u t g2 g3)
  constructor
  · intro hl
    have hi : m.initialState = n.initialState := by
      rcases h.init with ⟨_, g, _⟩ | ⟨g, _⟩
      · exact g
      · omega
    exact ⟨hx.same hl q, key false (.inl rfl) (.inr hi) q⟩
  · intro hl
    have hi : m.initialState = n.states.length := by
      rcases h.init with ⟨g, _⟩ | ⟨_, g, _⟩
      · omega
      · exact g
    exact ⟨(hx.more hl).1 q, key true (.inr hi) (.inl rfl) q⟩

theorem ElimFacts.many (h : ElimFacts n m D) (hx : ElimExact n m D) (hn : n.WF) :
    (n.ManyInitial ↔ m.states.length = n.states.length + 1) ∧ (¬ n.ManyInitial ↔ m.states.length = n.states.length) := by
  have hc : m.states.length = n.states.length ∨ m.states.length = n.states.length + 1 := by
    rcases h.init with ⟨g, _⟩ | ⟨g, _⟩
    · exact .inl g
    · exact .inr g
  have h1 : m.states.length = n.states.length + 1 → n.ManyInitial := by
    intro hl
    obtain ⟨p, g1, g2, g3⟩ := (hx.more hl).2
    exact ⟨p, path_nil_iff.2 g1, g2, fun hd => g3 ((dead_iff hn).1 hd)⟩
  have h2 : m.states.length = n.states.length → ¬ n.ManyInitial := by
    rintro hl ⟨p, g1, g2, g3⟩
    rcases h.init with ⟨_, _, _, g4⟩ | ⟨g, _⟩
    · rcases g4 p (path_nil_iff.1 g1) with rfl | hD
      · exact g2 rfl
      · exact g3 ((dead_iff hn).2 (hx.same hl p hD))
    · omega
  constructor
  · refine ⟨fun hm => hc.resolve_left (fun hl => h2 hl hm), h1⟩
  · refine ⟨fun hm => hc.resolve_right (fun hl => hm (h1 hl)), h2⟩

/-- The states of a restriction. -/
theorem restr_looks (kept : List Nat) : (m.restr kept).states.map NfaState.look = kept.map (fun q => (m.state q).look) := by
  rw [restr, List.map_map]
  rfl

/-- Transitions between states of a restriction, by name. -/
theorem restr_named {kept : List Nat} (h : RestrOk m kept) (hw : (m.restr kept).WF) {q t : Nat} (hq : q ∈ kept) (ht : t ∈ kept) {e : Str} :
    (m.restr kept).NamedMove (m.state q).name e (m.state t).name ↔ ∃ c : Nat, m.alphabet[c]? = some e ∧ t ∈ m.tr q c := by
  have hst : ∀ x ∈ kept, ∃ s, (m.restr kept).states[kept.idxOf x]? = some s ∧ s.name = (m.state x).name := by
    intro x hx
    refine ⟨(m.restr kept).state (kept.idxOf x), getElem?_state ?_, by rw [restr_state hx]⟩
    rw [restr, List.length_map]
    exact List.idxOf_lt_length_iff.2 hx
  have huniq : ∀ x ∈ kept, ∀ (i : Nat) (s : NfaState), (m.restr kept).states[i]? = some s → s.name = (m.state x).name → i = kept.idxOf x := by
    intro x hx i s hi hs
    obtain ⟨s', g1, g2⟩ := hst x hx
    have m1 : ((m.restr kept).states.map (·.name))[i]? = some (m.state x).name := by rw [List.getElem?_map, hi, ← hs]; rfl
    have m2 : ((m.restr kept).states.map (·.name))[kept.idxOf x]? = some (m.state x).name := by rw [List.getElem?_map, g1, ← g2]; rfl
    exact (List.getElem?_inj (by simpa using lt_of_getElem? hi) hw.names_nodup).1 (m1.trans m2.symm)
  have hmv : (m.restr kept).Move (kept.idxOf q) e (kept.idxOf t) ↔ ∃ c : Nat, m.alphabet[c]? = some e ∧ t ∈ m.tr q c := by
    rw [move_iff]
    refine exists_congr (fun c => and_congr Iff.rfl ?_)
    rw [restr_tr hq, List.mem_map]
    constructor
    · rintro ⟨u, hu, he⟩
      have := (List.idxOf_inj (h.tr q hq c u hu)).1 he
      rwa [← this]
    · intro hu; exact ⟨t, hu, rfl⟩
  rw [← hmv]
  constructor
  · rintro ⟨i, j, s, s', g1, g2, g3, g4, g5⟩
    rw [huniq q hq i s g1 g3, huniq t ht j s' g2 g4] at g5
    exact g5
  · intro g
    obtain ⟨s, g1, g2⟩ := hst q hq
    obtain ⟨s', g3, g4⟩ := hst t ht
    exact ⟨_, _, s, s', g1, g3, g2, g4, g⟩

/-- Restricting to all states changes nothing. -/
theorem restr_all (hn : n.WF) : n.restr (List.range n.states.length) = n := by
  have hidx : ∀ t, t < n.states.length → (List.range n.states.length).idxOf t = t := by
    intro t ht
    have := List.getElem?_idxOf (List.mem_range.2 ht)
    have hlt := lt_of_getElem? this
    rw [List.getElem?_range (by simpa using hlt)] at this
    simpa using this
  have hst : ∀ q, q < n.states.length → ({ n.state q with
        transitions := (n.state q).transitions.map (fun ts => ts.map (fun t => (List.range n.states.length).idxOf t))
        epsilonTransitions := (n.state q).epsilonTransitions.map (fun t => (List.range n.states.length).idxOf t) } : NfaState) = n.state q := by
    intro q hq
    have hm := state_mem hq
    have e1 : (n.state q).transitions.map (fun ts => ts.map (fun t => (List.range n.states.length).idxOf t)) = (n.state q).transitions := by
      conv_rhs => rw [← List.map_id (n.state q).transitions]
      refine List.map_congr_left (fun ts hts => ?_)
      conv_rhs => rw [id, ← List.map_id ts]
      exact List.map_congr_left (fun t ht => hidx t (hn.targets _ hm ts hts t ht))
    have e2 : (n.state q).epsilonTransitions.map (fun t => (List.range n.states.length).idxOf t) = (n.state q).epsilonTransitions := by
      conv_rhs => rw [← List.map_id (n.state q).epsilonTransitions]
      exact List.map_congr_left (fun t ht => hidx t (hn.eps_targets _ hm t ht))
    rw [e1, e2]
  have hs : (List.range n.states.length).map (fun q => ({ n.state q with
        transitions := (n.state q).transitions.map (fun ts => ts.map (fun t => (List.range n.states.length).idxOf t))
        epsilonTransitions := (n.state q).epsilonTransitions.map (fun t => (List.range n.states.length).idxOf t) } : NfaState)) = n.states := by
    apply List.ext_getElem?
    intro q
    rw [List.getElem?_map]
    by_cases hq : q < n.states.length
    · rw [List.getElem?_range hq, Option.map_some, hst q hq, getElem?_state hq]
    · rw [List.getElem?_eq_none (by simpa using hq), List.getElem?_eq_none (by simpa using hq)]; rfl
  unfold restr
  rw [hs, hidx _ hn.init_lt]

end Nfa

namespace Dfa
variable {d : Dfa}

/-- Restricting to all states changes nothing. -/
theorem quot_all (hd : d.WF) : quot d (List.range d.states.length) id = d := by
  have hidx : ∀ t, t < d.states.length → (List.range d.states.length).idxOf t = t := by
    intro t ht
    have := List.getElem?_idxOf (List.mem_range.2 ht)
    have hlt := lt_of_getElem? this
    rw [List.getElem?_range (by simpa using hlt)] at this
    simpa using this
  have hst : ∀ q, q < d.states.length → ({ d.state q with
        initial := decide (q = id d.initialState)
        transitions := (d.state q).transitions.map (fun t => (List.range d.states.length).idxOf (id t)) } : DfaState) = d.state q := by
    intro q hq
    have hm : d.state q ∈ d.states := List.mem_of_getElem? (getElem?_state hq)
    have e1 : (d.state q).transitions.map (fun t => (List.range d.states.length).idxOf (id t)) = (d.state q).transitions := by
      conv_rhs => rw [← List.map_id (d.state q).transitions]
      exact List.map_congr_left (fun t ht => hidx t (hd.targets _ hm t ht))
    have e2 : decide (q = id d.initialState) = (d.state q).initial := by
      rw [Bool.eq_iff_iff, decide_eq_true_eq]
      exact (hd.init_flag q _ (getElem?_state hq)).symm
    rw [e1, e2]
  have hs : (List.range d.states.length).map (fun q => ({ d.state q with
        initial := decide (q = id d.initialState)
        transitions := (d.state q).transitions.map (fun t => (List.range d.states.length).idxOf (id t)) } : DfaState)) = d.states := by
    apply List.ext_getElem?
    intro q
    rw [List.getElem?_map]
    by_cases hq : q < d.states.length
    · rw [List.getElem?_range hq, Option.map_some, hst q hq, getElem?_state hq]
    · rw [List.getElem?_eq_none (by simpa using hq), List.getElem?_eq_none (by simpa using hq)]; rfl
  unfold quot
  rw [hs, show (List.range d.states.length).idxOf (id d.initialState) = d.initialState from hidx _ hd.init_lt]

end Dfa
end Dandy
