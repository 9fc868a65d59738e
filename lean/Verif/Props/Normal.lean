import Verif.Proofs.Normal
import Verif.Proofs.History
import Verif.Props.Rearrange
import Verif.Props.Tables
import Verif.Props.DfaMinimize
/-! # C114: what the subset construction depends on, and a normal form -/

namespace Dandy
open Samples

/-- `evenA` with its states in another order and one that cannot be reached. -/
private def evenA' : Nfa :=
  { alphabet := [s 'b', s 'a'],
    states := [⟨s 'x', true, false, [], [[], [2]]⟩, ⟨s 'u', false, true, [3], [[1], [0]]⟩, ⟨s 'y', false, false, [], [[3], [3]]⟩,
      ⟨s 'z', false, true, [], [[2], [2]]⟩],
    initialState := 0 }

/-- An automaton equivalent to it which is in two states at once after some words. -/
private def evenB : Nfa :=
  { alphabet := [s 'b', s 'a'],
    states := [⟨s 'x', true, false, [], [[], [2]]⟩, ⟨s 'u', false, true, [], [[2], [2]]⟩, ⟨s 'y', false, false, [], [[3], [3]]⟩,
      ⟨s 'z', false, true, [], [[2], [4, 2]]⟩, ⟨s 'v', false, false, [], [[1], [1]]⟩],
    initialState := 0 }

private theorem evenA'_wf : evenA'.WF := Nfa.wf_of_wfB (by decide)
private theorem evenB_wf : evenB.WF := Nfa.wf_of_wfB (by decide)

/-- **C114** `to_dfa` gives the very same DFA for two NFAs exactly if they have the same elements in the same order, accept the
same words, and for any two words the one can be in the same states after both exactly if the other can. -/
theorem C114_to_dfa_iff (n n' : Nfa) (hn : n.WF) (hn' : n'.WF) :
    n.toDfa = n'.toDfa ↔ n.alphabet = n'.alphabet ∧ (∀ w, n.accepts w = n'.accepts w) ∧
      ∀ u v, Over n.alphabet u → Over n.alphabet v →
        ((∀ q, n.Path n.initialState u q ↔ n.Path n.initialState v q) ↔
          ∀ q, n'.Path n'.initialState u q ↔ n'.Path n'.initialState v q) := by
  have hl : (∀ w, n.accepts w = n'.accepts w) ↔ ∀ w, n.Lang w ↔ n'.Lang w := by
    simp only [Bool.eq_iff_iff, C02_nfa_accepts_iff n hn, C02_nfa_accepts_iff n' hn']
  rw [hl]
  constructor
  · intro h
    obtain ⟨h1, h2, h3⟩ := Nfa.sameSubsets_of_toDfa hn hn' h
    exact ⟨h1, h2, h3⟩
  · rintro ⟨h1, h2, h3⟩
    exact Nfa.SameSubsets.toDfa_eq hn hn' ⟨h1, h2, h3⟩

example : evenA'.WF ∧ evenA'.toDfa = evenA.toDfa ∧ evenA'.toDfa.isSome = true ∧
    (∀ q, evenA'.Path evenA'.initialState [s 'a', s 'b', s 'a'] q ↔ evenA'.Path evenA'.initialState [s 'a'] q) := by
  have h : evenA'.toDfa = evenA.toDfa := by decide
  refine ⟨evenA'_wf, h, by decide, ?_⟩
  refine (((C114_to_dfa_iff _ _ evenA'_wf evenA_wf).1 h).2.2 [s 'a', s 'b', s 'a'] [s 'a'] (by decide) (by decide)).2 ?_
  have key : ∀ w S, evenA.setE evenA.iset w = some S → ∀ q, q ∈ S ↔ evenA.Path evenA.initialState w q := fun w S h =>
    (by simpa using Nfa.isAfter_setE evenA_wf (Nfa.isAfter_iset evenA_wf) h : evenA.IsAfter w S).2
  intro q
  rw [← key [s 'a', s 'b', s 'a'] [0] (by decide), ← key [s 'a'] [0] (by decide)]

/-- Equivalent automata of which `to_dfa` makes different ones. -/
example : evenB.WF ∧ evenB.alphabet = evenA.alphabet ∧ evenB.equivalentTo evenA = some true ∧ evenB.toDfa ≠ evenA.toDfa :=
  ⟨evenB_wf, rfl, by decide, by decide⟩

/-- **C114** For DFAs: `to_nfa` and `to_dfa` give the very same DFA exactly if elements and accepted words are the same and any two
words lead to one state in the one exactly if they do in the other. -/
theorem C114_dfa_iff (d d' : Dfa) (hd : d.WF) (hd' : d'.WF) :
    d.toNfa.toDfa = d'.toNfa.toDfa ↔ d.alphabet = d'.alphabet ∧ (∀ w, d.accepts w = d'.accepts w) ∧
      ∀ u v, Over d.alphabet u → Over d.alphabet v →
        ((∃ q, d.Run d.initialState u q ∧ d.Run d.initialState v q) ↔
          ∃ q, d'.Run d'.initialState u q ∧ d'.Run d'.initialState v q) := by
  have key : ∀ d : Dfa, d.WF → ∀ u v, Over d.alphabet u → Over d.alphabet v →
      ((∀ q, d.toNfa.Path d.toNfa.initialState u q ↔ d.toNfa.Path d.toNfa.initialState v q) ↔
        ∃ q, d.Run d.initialState u q ∧ d.Run d.initialState v q) := by
    intro d hd u v hu hv
    obtain ⟨p, hp⟩ := Dfa.runE_exists (d := d) d.initialState hu
    obtain ⟨q, hq⟩ := Dfa.runE_exists (d := d) d.initialState hv
    have : d.toNfa.initialState = d.initialState := rfl
    simp only [this, Dfa.toNfa_path, Dfa.run_iff hd hd.init_lt, hp, hq, Option.some.injEq]
    constructor
    · intro h; exact ⟨p, rfl, ((h p).1 rfl)⟩
    · rintro ⟨r, rfl, rfl⟩ _; rfl
  have ha : ∀ d : Dfa, d.toNfa.alphabet = d.alphabet := fun _ => rfl
  have hacc : ∀ d : Dfa, d.WF → ∀ w, d.toNfa.accepts w = d.accepts w := fun d hd w => (C18_to_nfa_lang d hd w).2.2
  rw [C114_to_dfa_iff _ _ (Dfa.toNfa_wf hd) (Dfa.toNfa_wf hd'), ha, ha]
  refine and_congr_right fun h1 => and_congr (by simp only [hacc d hd, hacc d' hd']) ?_
  refine forall_congr' fun u => forall_congr' fun v => forall_congr' fun hu => forall_congr' fun hv => ?_
  rw [key d hd u v hu hv, key d' hd' u v (h1 ▸ hu) (h1 ▸ hv)]

example : redundant.WF ∧ redundant'.WF ∧ redundant.alphabet = redundant'.alphabet ∧ (∀ w, redundant.accepts w = redundant'.accepts w) ∧
    redundant.toNfa.toDfa ≠ redundant'.toNfa.toDfa ∧
    ¬ ∀ u v, Over redundant.alphabet u → Over redundant.alphabet v →
        ((∃ q, redundant.Run redundant.initialState u q ∧ redundant.Run redundant.initialState v q) ↔
          ∃ q, redundant'.Run redundant'.initialState u q ∧ redundant'.Run redundant'.initialState v q) := by
  have hw : redundant.WF := Dfa.wf_of_wfB (by decide)
  have hl : ∀ w, redundant.accepts w = redundant'.accepts w := fun w => by
    rw [Bool.eq_iff_iff, C01_dfa_accepts_iff _ hw, C01_dfa_accepts_iff _ redundant'_wf]
    exact ((C11_dfa_equivalent_to _ _ hw redundant'_wf).2.1 (by decide)).2 w
  have hne : redundant.toNfa.toDfa ≠ redundant'.toNfa.toDfa := by decide
  exact ⟨hw, redundant'_wf, rfl, hl, hne, fun h => hne ((C114_dfa_iff _ _ hw redundant'_wf).2 ⟨rfl, hl, h⟩)⟩

/-- **C114** Converting the result once more, `to_nfa` and `to_dfa`, changes nothing at all. -/
theorem C114_again (n : Nfa) (hn : n.WF) (d : Dfa) (h : n.toDfa = some d) : d.toNfa.toDfa = some d := by
  obtain ⟨ks, h1, h2⟩ := Nfa.toDfa_eq hn
  rw [h1] at h
  cases h
  have hwf := Nfa.subsetOf_wf hn h2
  rw [← h1]
  refine Nfa.SameSubsets.toDfa_eq (Dfa.toNfa_wf hwf) hn ⟨rfl, fun w => ?_, fun u v hu hv => ?_⟩
  · rw [Dfa.toNfa_lang, Nfa.subsetOf_lang hn h2]
  · rw [← Nfa.subsetOf_same hn h2 hu hv]
    have hi : (Nfa.subsetOf n ks).toNfa.initialState = (Nfa.subsetOf n ks).initialState := rfl
    have h0 : (Nfa.subsetOf n ks).initialState = 0 := rfl
    simp only [Dfa.toNfa_path, hi, Dfa.run_iff hwf hwf.init_lt]
    rw [h0]
    obtain ⟨p, hp⟩ := Dfa.runE_exists (d := Nfa.subsetOf n ks) 0 hu
    obtain ⟨q, hq⟩ := Dfa.runE_exists (d := Nfa.subsetOf n ks) 0 hv
    rw [hp, hq, Option.some.injEq]
    constructor
    · intro h; exact (Option.some.inj ((h p).1 rfl)).symm
    · rintro rfl _; rfl

example : ∃ d, epsNfa.toDfa = some d ∧ d.states.length = 3 ∧ d.toNfa.toDfa = some d := by
  obtain ⟨d, hd, _⟩ := C19_to_dfa epsNfa epsNfa_wf
  refine ⟨d, hd, ?_, C114_again epsNfa epsNfa_wf d hd⟩
  have : epsNfa.toDfa.map (fun d => d.states.length) = some 3 := by decide
  rw [hd] at this
  exact Option.some.inj this

/-- **C114** Removing unreachable states before does not change what `to_dfa` gives. -/
theorem C114_remove_unreachable (ord : List Nat → List Nat) (hord : ∀ l, (ord l).Perm l) (n m : Nfa) (hn : n.WF)
    (h : n.removeUnreachableStates ord = some m) : m.toDfa = n.toDfa := by
  obtain ⟨kept, _, _, h3, h4⟩ := Nfa.removeUnreachableStates_eq hord hn
  rw [h4] at h
  cases h
  exact (Nfa.restr_sameSubsets h3).toDfa_eq (Nfa.restr_wf' hn h3) hn

example : ∃ m, evenA'.removeUnreachableStates List.reverse = some m ∧ m.states.length = 3 ∧ evenA'.states.length = 4 ∧
    m.toDfa = evenA'.toDfa := by
  obtain ⟨kept, _, _, _, h⟩ := Nfa.removeUnreachableStates_eq (ord := List.reverse) List.reverse_perm evenA'_wf
  refine ⟨_, h, ?_, rfl, C114_remove_unreachable List.reverse List.reverse_perm evenA' _ evenA'_wf h⟩
  have : (evenA'.removeUnreachableStates List.reverse).map (fun d => d.states.length) = some 3 := by decide
  rw [h] at this
  exact Option.some.inj this

/-- **C114** Two NFA tables which say the same, with the elements in the same order, give the very same DFA. -/
theorem C114_nfa_table (p p' : ParsedNfa) (n n' : Nfa) (h1 : Validate.nfa p = .ok n) (h2 : Validate.nfa p' = .ok n')
    (h : p.SameContent p') (ha : n.alphabet = n'.alphabet) : n.toDfa = n'.toDfa := by
  obtain ⟨_, hn, _⟩ := C39_content p n h1
  obtain ⟨_, hn', _⟩ := C39_content p' n' h2
  obtain ⟨_, _, g3, _, g5, _⟩ := C110_nfa p p' n n' h1 h2 h
  refine (Nfa.sameSubsets_of_inState hn hn' ha (fun w => ?_) g3).toDfa_eq hn hn'
  rw [← C02_nfa_accepts_iff n hn, ← C02_nfa_accepts_iff n' hn', g5]

/-- Lines exchanged, and a target written twice: another NFA, but the same DFA. -/
example : ∃ p p' n n', Fa.nfa c!"  a b\n* y {n} {n y}\n-> n {y} {}\n" = some p ∧ Fa.nfa c!"  a b\n-> n {y y} {}\n* y {n} {y n}\n" = some p' ∧
    Validate.nfa p = .ok n ∧ Validate.nfa p' = .ok n' ∧ p.SameContent p' ∧ n ≠ n' ∧ n.toDfa = n'.toDfa := by
  let p : ParsedNfa := ⟨[.element (s 'a'), .element (s 'b')],
    [⟨s 'y', false, true, [[s 'n'], [s 'n', s 'y']]⟩, ⟨s 'n', true, false, [[s 'y'], []]⟩]⟩
  let p' : ParsedNfa := ⟨[.element (s 'a'), .element (s 'b')],
    [⟨s 'n', true, false, [[s 'y', s 'y'], []]⟩, ⟨s 'y', false, true, [[s 'n'], [s 'y', s 'n']]⟩]⟩
  let n : Nfa := ⟨[s 'a', s 'b'], [⟨s 'y', false, true, [], [[1], [1, 0]]⟩, ⟨s 'n', true, false, [], [[0], []]⟩], 1⟩
  have h1 : Fa.nfa c!"  a b\n* y {n} {n y}\n-> n {y} {}\n" = some p := by decide +kernel
  have h2 : Fa.nfa c!"  a b\n-> n {y y} {}\n* y {n} {y n}\n" = some p' := by decide +kernel
  have h3 : Validate.nfa p = .ok n := by decide
  have h4 : p.Rearranged p' := by
    refine ⟨[0, 1], p'.states.reverse, by decide, by decide, ?_, by decide⟩
    refine .cons ⟨rfl, rfl, rfl, ?_⟩ (.cons ⟨rfl, rfl, rfl, ?_⟩ .nil)
    · exact .cons (by simp) (.cons (by simp [or_comm]) .nil)
    · exact .cons (by simp) (.cons (by simp) .nil)
  obtain ⟨g1, g2⟩ := C110_nfa_rearranged p p' (by simp [p, ParsedNfa.Rectangular]) h4
  obtain ⟨n', h5⟩ := g1.1 ⟨n, h3⟩
  have hne : Validate.nfa p' ≠ .ok n := by decide
  refine ⟨p, p', n, n', h1, h2, h3, h5, g2, fun h => hne (h ▸ h5), C114_nfa_table p p' n n' h3 h5 g2 ?_⟩
  have := (C39_content p' n' h5).1.alphabet
  rw [this]
  decide

/-- **C114** Two DFA tables which say the same, with the elements in the same order, give the very same DFA after `to_nfa` and
`to_dfa`. -/
theorem C114_dfa_table (p p' : ParsedDfa) (d d' : Dfa) (h1 : Validate.dfa p = .ok d) (h2 : Validate.dfa p' = .ok d')
    (h : p.SameContent p') (ha : d.alphabet = d'.alphabet) : d.toNfa.toDfa = d'.toNfa.toDfa := by
  obtain ⟨_, hd, _⟩ := C38_content p d h1
  obtain ⟨_, hd', _⟩ := C38_content p' d' h2
  obtain ⟨_, _, g3, _, g5, _⟩ := C110_dfa p p' d d' h1 h2 h
  have hin : ∀ d : Dfa, ∀ w m, d.toNfa.InState w m ↔ d.InState w m := by
    intro d w m
    have hi : d.toNfa.initialState = d.initialState := rfl
    simp only [Nfa.InState, Dfa.InState, Dfa.toNfa_path, hi]
    constructor
    · rintro ⟨q, s, a1, a2, a3⟩
      simp only [Dfa.toNfa, List.getElem?_map, Option.map_eq_some_iff] at a2
      obtain ⟨t, a4, rfl⟩ := a2
      exact ⟨q, t, a1, a4, a3⟩
    · rintro ⟨q, s, a1, a2, a3⟩
      exact ⟨q, _, a1, (List.getElem?_map (l := d.states)).trans (congrArg (Option.map _) a2), a3⟩
  refine (Nfa.sameSubsets_of_inState (Dfa.toNfa_wf hd) (Dfa.toNfa_wf hd') ha (fun w => ?_)
    (fun w m => by rw [hin, hin, g3])).toDfa_eq (Dfa.toNfa_wf hd) (Dfa.toNfa_wf hd')
  rw [Dfa.toNfa_lang, Dfa.toNfa_lang, ← C01_dfa_accepts_iff d hd, ← C01_dfa_accepts_iff d' hd', g5]

example : ∃ p p' d d', Fa.dfa c!"  a b\n-> n n y\n* y n y\n" = some p ∧ Fa.dfa c!"  a b\n* y n y\n-> n n y\n" = some p' ∧
    Validate.dfa p = .ok d ∧ Validate.dfa p' = .ok d' ∧ d ≠ d' ∧ d.toNfa.toDfa = d'.toNfa.toDfa := by
  let p : ParsedDfa := ⟨[s 'a', s 'b'], [⟨s 'n', true, false, [s 'n', s 'y']⟩, ⟨s 'y', false, true, [s 'n', s 'y']⟩]⟩
  let p' : ParsedDfa := ⟨[s 'a', s 'b'], [⟨s 'y', false, true, [s 'n', s 'y']⟩, ⟨s 'n', true, false, [s 'n', s 'y']⟩]⟩
  let d : Dfa := ⟨[s 'a', s 'b'], [⟨s 'n', true, false, [0, 1]⟩, ⟨s 'y', false, true, [0, 1]⟩], 0⟩
  let d' : Dfa := ⟨[s 'a', s 'b'], [⟨s 'y', false, true, [1, 0]⟩, ⟨s 'n', true, false, [1, 0]⟩], 1⟩
  have h3 : Validate.dfa p = .ok d := by decide
  have h4 : Validate.dfa p' = .ok d' := by decide
  have h5 : p.SameContent p' := (C110_dfa_rearranged p p' (by simp [p, ParsedDfa.Rectangular])
    ⟨[0, 1], by decide, by decide, by decide⟩).2
  exact ⟨p, p', d, d', by decide +kernel, by decide +kernel, h3, h4, by decide, C114_dfa_table p p' d d' h3 h4 h5 rfl⟩

/-- In a DFA without states that could be merged, two words lead to the same state exactly if the same words continue them to accepted ones. -/
private theorem reduced_same {m : Dfa} (hm : m.WF) (hr : ∀ p < m.states.length, ∀ q < m.states.length, m.Indist p q → p = q) {u v : Word}
    (hu : Over m.alphabet u) (hv : Over m.alphabet v) :
    (∃ q, m.Run m.initialState u q ∧ m.Run m.initialState v q) ↔ ∀ w, m.Lang (u ++ w) ↔ m.Lang (v ++ w) := by
  obtain ⟨p, hp⟩ := Dfa.runE_exists (d := m) m.initialState hu
  obtain ⟨q, hq⟩ := Dfa.runE_exists (d := m) m.initialState hv
  have hp' := Dfa.runE_lt hm hm.init_lt hp
  have hq' := Dfa.runE_lt hm hm.init_lt hq
  have key : ∀ u p, m.runE m.initialState u = some p → p < m.states.length → ∀ w, (m.Lang (u ++ w) ↔ ∃ r, m.Run p w r ∧ m.Acc r) := by
    intro u p hp hp' w
    unfold Dfa.Lang
    simp only [Dfa.run_iff hm hm.init_lt, Dfa.runE_append, hp, Option.bind_some, Dfa.run_iff hm hp']
  simp only [key u p hp hp', key v q hq hq']
  simp only [Dfa.run_iff hm hm.init_lt, hp, hq, Option.some.injEq]
  constructor
  · rintro ⟨r, rfl, rfl⟩ _; rfl
  · intro h; exact ⟨p, rfl, (hr p hp' q hq' h).symm⟩

/-- `to_nfa` and `to_dfa` never give more states. -/
private theorem toNfa_toDfa_length {m c : Dfa} (hm : m.WF) (h : m.toNfa.toDfa = some c) : c.states.length ≤ m.states.length := by
  obtain ⟨ks, h1, h2⟩ := Nfa.toDfa_eq (Dfa.toNfa_wf hm)
  rw [h1] at h
  cases h
  have hw := Nfa.subsetOf_wf (Dfa.toNfa_wf hm) h2
  have hlen : (m.toNfa.subsetOf ks).states.length = ks.length := by simp [Nfa.subsetOf]
  have key : ∀ S ∈ ks, ∃ q < m.states.length, S = [q] := by
    intro S hS
    obtain ⟨w, hw⟩ := (h2.mem_iff S).1 hS
    have hs := Nfa.isAfter_setE (Dfa.toNfa_wf hm) (Nfa.isAfter_iset (Dfa.toNfa_wf hm)) hw
    have ho : Over m.alphabet w := by
      intro e he
      by_contra hc
      rw [Nfa.setE_none.2 ⟨e, he, hc⟩] at hw
      cases hw
    obtain ⟨q, hq⟩ := Dfa.runE_exists (d := m) m.initialState ho
    refine ⟨q, Dfa.runE_lt hm hm.init_lt hq, sorted_ext hs.1 (by simp) fun x => ?_⟩
    have hi : m.toNfa.initialState = m.initialState := rfl
    rw [hs.2, List.nil_append, Dfa.toNfa_path, hi, Dfa.run_iff hm hm.init_lt, hq]
    simp [eq_comm]
  rw [hlen]
  have hsub : ks ⊆ (List.range m.states.length).map (fun q => [q]) := by
    intro S hS
    obtain ⟨q, hq, rfl⟩ := key S hS
    exact List.mem_map.2 ⟨q, List.mem_range.2 hq, rfl⟩
  have := (h2.nodup.subperm hsub).length_le
  simpa using this

/-- **C114** `minimize`, `to_nfa` and `to_dfa` together are a normal form: they give the very same DFA for two DFAs, for all hash orders,
exactly if these have the same elements in the same order and are equivalent. It has as few states as possible. -/
theorem C114_normal_form (ordU ord ordKeys ordU' ord' ordKeys' : List Nat → List Nat) (hU : ∀ l, (ordU l).Perm l)
    (hord : ∀ l, (ord l).Perm l) (hK : ∀ l, (ordKeys l).Perm l) (hU' : ∀ l, (ordU' l).Perm l) (hord' : ∀ l, (ord' l).Perm l)
    (hK' : ∀ l, (ordKeys' l).Perm l) (d d' : Dfa) (hd : d.WF) (hd' : d'.WF) :
    ∃ m m' c c', d.minimize ordU ord ordKeys = some m ∧ d'.minimize ordU' ord' ordKeys' = some m' ∧
      m.toNfa.toDfa = some c ∧ m'.toNfa.toDfa = some c' ∧ c.WF ∧ c.states.length = m.states.length ∧ (∀ w, c.accepts w = d.accepts w) ∧
      (c = c' ↔ d.alphabet = d'.alphabet ∧ d.equivalentTo d' = some true) := by
  obtain ⟨m, h1, h2, h3, h4, h5⟩ := C16_minimize ordU ord ordKeys hU hord hK d hd
  obtain ⟨m', i1, i2, i3, i4, i5⟩ := C16_minimize ordU' ord' ordKeys' hU' hord' hK' d' hd'
  obtain ⟨_, hr⟩ := C16_minimize_reduced ordU ord ordKeys hU hord hK d m hd h1
  obtain ⟨_, hr'⟩ := C16_minimize_reduced ordU' ord' ordKeys' hU' hord' hK' d' m' hd' i1
  obtain ⟨c, c1, c2, c3, c4, c5⟩ := C19_to_dfa m.toNfa (Dfa.toNfa_wf h2)
  obtain ⟨c', e1, e2, e3, e4, e5⟩ := C19_to_dfa m'.toNfa (Dfa.toNfa_wf i2)
  have hcl : ∀ w, c.Lang w ↔ d.Lang w := fun w => by rw [c4, Dfa.toNfa_lang, h4]
  refine ⟨m, m', c, c', h1, i1, c1, e1, c2, ?_, fun w => ?_, ?_⟩
  · refine le_antisymm (toNfa_toDfa_length h2 c1) (h5 c c2 ?_ hcl)
    rw [c3]; exact fun e => by rw [show m.toNfa.alphabet = m.alphabet from rfl, h3]
  · rw [Bool.eq_iff_iff, C01_dfa_accepts_iff c c2, C01_dfa_accepts_iff d hd]; exact hcl w
  · have : c = c' ↔ m.toNfa.toDfa = m'.toNfa.toDfa := by rw [c1, e1, Option.some.injEq]
    rw [this, C114_dfa_iff m m' h2 i2, h3, i3, (C11_dfa_equivalent_to d d' hd hd').2]
    refine and_congr_right fun ha => ?_
    have hl : (∀ w, m.accepts w = m'.accepts w) ↔ ∀ w, d.Lang w ↔ d'.Lang w := by
      simp only [Bool.eq_iff_iff, C01_dfa_accepts_iff m h2, C01_dfa_accepts_iff m' i2, h4, i4]
    rw [hl]
    constructor
    · rintro ⟨g1, _⟩
      exact ⟨by rw [ha]; exact fun _ => Iff.rfl, g1⟩
    · rintro ⟨_, g2⟩
      refine ⟨g2, fun u v hu hv => ?_⟩
      rw [reduced_same h2 hr (h3 ▸ hu) (h3 ▸ hv), reduced_same i2 hr' (by rw [i3, ← ha]; exact hu) (by rw [i3, ← ha]; exact hv)]
      simp only [h4, i4, g2]

example : ∃ m m' c, redundant.minimize id List.reverse id = some m ∧ redundant'.minimize List.reverse id id = some m' ∧ m ≠ m' ∧
    m.toNfa.toDfa = some c ∧ m'.toNfa.toDfa = some c ∧ c.states.length = 3 := by
  obtain ⟨m, m', c, c', h1, h2, h3, h4, _, h6, _, h8⟩ := C114_normal_form id List.reverse id List.reverse id id (fun _ => .refl _)
    List.reverse_perm (fun _ => .refl _) List.reverse_perm (fun _ => .refl _) (fun _ => .refl _) redundant redundant'
    (Dfa.wf_of_wfB (by decide)) redundant'_wf
  obtain rfl := h8.2 ⟨rfl, by decide⟩
  have hl : (redundant.minimize id List.reverse id).map (fun d => d.states.length) = some 3 := by decide
  have hne : redundant.minimize id List.reverse id ≠ redundant'.minimize List.reverse id id := by decide
  rw [h1] at hl
  refine ⟨m, m', c, h1, h2, ?_, h3, h4, h6.trans (Option.some.inj hl)⟩
  rintro rfl
  exact hne (h1.trans h2.symm)

/-- **C114** The same normal form for NFAs (and so for regular expressions): `to_dfa`, `minimize`, `to_nfa` and `to_dfa`. -/
theorem C114_normal_form_nfa (ordU ord ordKeys ordU' ord' ordKeys' : List Nat → List Nat) (hU : ∀ l, (ordU l).Perm l)
    (hord : ∀ l, (ord l).Perm l) (hK : ∀ l, (ordKeys l).Perm l) (hU' : ∀ l, (ordU' l).Perm l) (hord' : ∀ l, (ord' l).Perm l)
    (hK' : ∀ l, (ordKeys' l).Perm l) (n n' : Nfa) (hn : n.WF) (hn' : n'.WF) :
    ∃ d d' m m' c c', n.toDfa = some d ∧ n'.toDfa = some d' ∧ d.minimize ordU ord ordKeys = some m ∧
      d'.minimize ordU' ord' ordKeys' = some m' ∧ m.toNfa.toDfa = some c ∧ m'.toNfa.toDfa = some c' ∧
      c.states.length = m.states.length ∧ (∀ w, c.accepts w = n.accepts w) ∧
      (c = c' ↔ n.alphabet = n'.alphabet ∧ n.equivalentTo n' = some true) := by
  obtain ⟨d, h1, h2, h3, h4, h5⟩ := C19_to_dfa n hn
  obtain ⟨d', i1, i2, i3, i4, i5⟩ := C19_to_dfa n' hn'
  obtain ⟨m, m', c, c', g1, g2, g3, g4, _, g6, g7, g8⟩ :=
    C114_normal_form ordU ord ordKeys ordU' ord' ordKeys' hU hord hK hU' hord' hK' d d' h2 i2
  refine ⟨d, d', m, m', c, c', h1, i1, g1, g2, g3, g4, g6, fun w => by rw [g7, h5], ?_⟩
  obtain ⟨b, hb, hiff⟩ := C20_nfa_equivalent_to n n' hn hn'
  rw [g8, h3, i3, (C11_dfa_equivalent_to d d' h2 i2).2, hb, Option.some.injEq, hiff]
  simp only [h3, i3, h4, i4]

/-- Two equivalent NFAs of which `to_dfa` alone makes different ones have the same normal form. -/
example : ∃ d d' m m' c, evenA.toDfa = some d ∧ evenB.toDfa = some d' ∧ d ≠ d' ∧ d.minimize id id id = some m ∧ d'.minimize id id id = some m' ∧
    m.toNfa.toDfa = some c ∧ m'.toNfa.toDfa = some c ∧ ∀ w, c.accepts w = evenA.accepts w := by
  have hp : ∀ l : List Nat, (id l).Perm l := fun _ => .refl _
  obtain ⟨d, d', m, m', c, c', h1, h2, h3, h4, h5, h6, _, h7, h8⟩ := C114_normal_form_nfa id id id id id id hp hp hp hp hp hp evenA evenB
    evenA_wf evenB_wf
  obtain rfl := h8.2 ⟨rfl, by decide⟩
  refine ⟨d, d', m, m', c, h1, h2, ?_, h3, h4, h5, h6, h7⟩
  rintro rfl
  exact absurd (h1.trans h2.symm) (by decide)

/-- **C114** So two DFAs with the same elements in the same order are equivalent exactly if the tables printed of their normal forms are the
same text. -/
theorem C114_tables (ordU ord ordKeys ordU' ord' ordKeys' : List Nat → List Nat) (hU : ∀ l, (ordU l).Perm l)
    (hord : ∀ l, (ord l).Perm l) (hK : ∀ l, (ordKeys l).Perm l) (hU' : ∀ l, (ordU' l).Perm l) (hord' : ∀ l, (ord' l).Perm l)
    (hK' : ∀ l, (ordKeys' l).Perm l) (d d' m m' c c' : Dfa) (hd : d.WF) (hd' : d'.WF) (ha : d.alphabet = d'.alphabet)
    (hne : d.alphabet ≠ []) (hal : ∀ e ∈ d.alphabet, TableText.Name e)
    (h1 : d.minimize ordU ord ordKeys = some m) (h2 : d'.minimize ordU' ord' ordKeys' = some m') (h3 : m.toNfa.toDfa = some c)
    (h4 : m'.toNfa.toDfa = some c') : c.toTable = c'.toTable ↔ d.equivalentTo d' = some true := by
  obtain ⟨_, _, _, _, g1, g2, g3, g4, g5, _, _, g8⟩ :=
    C114_normal_form ordU ord ordKeys ordU' ord' ordKeys' hU hord hK hU' hord' hK' d d' hd hd'
  rw [h1] at g1; cases g1
  rw [h2] at g2; cases g2
  rw [h3] at g3; cases g3
  rw [h4] at g4; cases g4
  rw [show d.equivalentTo d' = some true ↔ c = c' by rw [g8]; simp [ha]]
  have key : ∀ (d m c : Dfa) (ordU ord ordKeys : List Nat → List Nat), (∀ l, (ordU l).Perm l) → (∀ l, (ord l).Perm l) → (∀ l, (ordKeys l).Perm l) →
      d.WF → d.alphabet ≠ [] → (∀ e ∈ d.alphabet, TableText.Name e) → d.minimize ordU ord ordKeys = some m → m.toNfa.toDfa = some c →
      ∃ t p, c.toTable = some t ∧ Fa.dfa t = some p ∧ Validate.dfa p = .ok c := by
    intro d m c ordU ord ordKeys hU hord hK hd hne hal h1 h3
    obtain ⟨m', k1, k2, k3, _⟩ := C16_minimize ordU ord ordKeys hU hord hK d hd
    rw [h1] at k1; cases k1
    obtain ⟨c', l1, l2, l3, _⟩ := C19_to_dfa m.toNfa (Dfa.toNfa_wf k2)
    rw [h3] at l1; cases l1
    obtain ⟨_, hnames, _⟩ := C19_to_dfa_shape m.toNfa (Dfa.toNfa_wf k2) c h3
    have hca : c.alphabet = d.alphabet := l3.trans k3
    refine (C40_roundtrip c l2 (by rw [hca]; exact hne) (by rw [hca]; exact hal) ?_).1
    intro s hs
    obtain ⟨i, hi⟩ := List.mem_iff_getElem?.1 hs
    rw [hnames i s hi]
    exact name_num i
  obtain ⟨t, p, e1, e2, e3⟩ := key d m c ordU ord ordKeys hU hord hK hd hne hal h1 h3
  obtain ⟨t', p', e1', e2', e3'⟩ := key d' m' c' ordU' ord' ordKeys' hU' hord' hK' hd' (ha ▸ hne) (ha ▸ hal) h2 h4
  constructor
  · intro h
    rw [e1, e1', Option.some.injEq] at h
    subst h
    rw [e2, Option.some.injEq] at e2'
    subst e2'
    rw [e3] at e3'
    exact Except.ok.inj e3'
  · rintro rfl; rfl

example : ∃ m m' c c', redundant.minimize id id id = some m ∧ redundant'.minimize id id id = some m' ∧
    m.toNfa.toDfa = some c ∧ m'.toNfa.toDfa = some c' ∧ c.toTable = c'.toTable := by
  have hp : ∀ l : List Nat, (id l).Perm l := fun _ => .refl _
  have hw : redundant.WF := Dfa.wf_of_wfB (by decide)
  obtain ⟨m, m', c, c', h1, h2, h3, h4, _⟩ := C114_normal_form id id id id id id hp hp hp hp hp hp redundant redundant' hw redundant'_wf
  exact ⟨m, m', c, c', h1, h2, h3, h4, (C114_tables id id id id id id hp hp hp hp hp hp redundant redundant' m m' c c' hw redundant'_wf rfl
    (by decide) (by intro e he; rw [name_iff]; revert e; decide) h1 h2 h3 h4).2 (by decide)⟩

end Dandy
