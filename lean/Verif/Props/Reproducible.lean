import Verif.Proofs.Reproducible
import Verif.Props.Cli
import Verif.Props.NfaEps
/-!
# Repeating a call: C86

The iteration order of hash sets is different in each run of a program. What does this change?
-/

namespace Dandy
open Cli Cli.Automata Samples

/-! ## Removing unreachable states: nothing -/

/-- **C86** `Dfa::remove_unreachable_states` gives the same DFA in every run: names, numbers, order of states, everything. -/
theorem C86_dfa_remove_unreachable (ord ord' : List Nat → List Nat) (h : ∀ l, (ord l).Perm l) (h' : ∀ l, (ord' l).Perm l)
    (d : Dfa) : d.removeUnreachableStates ord = d.removeUnreachableStates ord' := by
  unfold Dfa.removeUnreachableStates
  cases d.unreachableStateIdx with
  | none => rfl
  | some u => exact Dfa.removeStates_perm ((h u).trans (h' u).symm)

/-- **C86** `Nfa::remove_unreachable_states` gives the same NFA in every run. -/
theorem C86_nfa_remove_unreachable (ord ord' : List Nat → List Nat) (h : ∀ l, (ord l).Perm l) (h' : ∀ l, (ord' l).Perm l)
    (n : Nfa) : n.removeUnreachableStates ord = n.removeUnreachableStates ord' := by
  unfold Nfa.removeUnreachableStates
  cases n.unreachableStateIdx with
  | none => rfl
  | some u => exact Nfa.removeStates_perm ((h u).trans (h' u).symm)

/-- Two states to be removed, so that there are two orders. -/
private def twoOff : Dfa :=
  { alphabet := [s 'a'], states := [⟨s 'x', false, true, [1]⟩, ⟨s 'y', true, false, [1]⟩, ⟨s 'z', false, true, [0]⟩],
    initialState := 1 }

example : twoOff.unreachableStateIdx = some [0, 2] ∧ twoOff.removeUnreachableStates id = some
    { alphabet := [s 'a'], states := [⟨s 'y', true, false, [0]⟩], initialState := 0 } ∧
    twoOff.removeUnreachableStates List.reverse = twoOff.removeUnreachableStates id := by decide

/-! ## Products: at most the names -/

/-- **C86** The DFA product (union, intersection, difference, symmetric difference, or any other combination): two runs give results that
differ at most in the names of the states. -/
theorem C86_dfa_product (ord ord' : List (Nat × Nat) → List (Nat × Nat)) (h : ∀ l, (ord l).Perm l) (h' : ∀ l, (ord' l).Perm l)
    (d o : Dfa) (hd : d.WF) (ho : o.WF) (hs : SameElems d.alphabet o.alphabet) (comb : DfaState → DfaState → Bool) :
    ∃ p p', Dfa.product ord d o comb = some (some p) ∧ Dfa.product ord' d o comb = some (some p') ∧ p.SameButNames p' := by
  obtain ⟨ks, _, hk⟩ := Dfa.product_eq_all hd ho hs comb
  obtain ⟨g, h1, _⟩ := hk ord h
  obtain ⟨g', h2, _⟩ := hk ord' h'
  refine ⟨_, _, h1, h2, rfl, rfl, ?_⟩
  unfold Dfa.prodOf
  exact List.forall₂_map_left_iff.2 (List.forall₂_map_right_iff.2 (List.forall₂_same.2 fun _ _ => ⟨rfl, rfl, rfl⟩))

/-- **C86** If no name in the first DFA (or none in the second) contains a comma, the results are the same, and every state is named
after the pair of states it stands for. -/
theorem C86_dfa_product_names (ord ord' : List (Nat × Nat) → List (Nat × Nat)) (h : ∀ l, (ord l).Perm l)
    (h' : ∀ l, (ord' l).Perm l) (d o : Dfa) (hd : d.WF) (ho : o.WF) (hs : SameElems d.alphabet o.alphabet)
    (comb : DfaState → DfaState → Bool) (hc : (∀ s ∈ d.states, ',' ∉ s.name) ∨ ∀ s ∈ o.states, ',' ∉ s.name) :
    ∃ p, Dfa.product ord d o comb = some (some p) ∧ Dfa.product ord' d o comb = some (some p) ∧
      ∀ s ∈ p.states, ∃ s1 ∈ d.states, ∃ s2 ∈ o.states, s.name = ['('] ++ s1.name ++ [','] ++ s2.name ++ [')'] ∧
        s.accepting = comb s1 s2 := by
  obtain ⟨ks, hks, hk⟩ := Dfa.product_eq_all hd ho hs comb
  have hlt : ∀ k ∈ ks, k.1 < d.states.length ∧ k.2 < o.states.length := by
    intro k hkk
    obtain ⟨w, h1, h2⟩ := (hks.mem_iff k).1 hkk
    exact ⟨Dfa.runE_lt hd hd.init_lt h1, Dfa.runE_lt ho ho.init_lt h2⟩
  have hinj : ∀ {d : Dfa}, d.WF → ∀ {p q : Nat}, p < d.states.length → q < d.states.length →
      (d.state p).name = (d.state q).name → p = q := by
    intro d hd p q hp hq he
    refine (List.getElem?_inj (by simpa using hp) hd.names_nodup).1 ?_
    rw [List.getElem?_map, List.getElem?_map, Dfa.getElem?_state hp, Dfa.getElem?_state hq]
    simp only [Option.map_some, he]
  have hw : ∀ j ∈ ks, ∀ k ∈ ks, Dfa.pairName (d.state j.1).name (o.state j.2).name =
      Dfa.pairName (d.state k.1).name (o.state k.2).name → j = k := by
    intro j hj k hkk he
    have := pairName_inj he (by
      rcases hc with hc | hc
      · exact Or.inl ⟨hc _ (Dfa.state_mem (hlt j hj).1), hc _ (Dfa.state_mem (hlt k hkk).1)⟩
      · exact Or.inr ⟨hc _ (Dfa.state_mem (hlt j hj).2), hc _ (Dfa.state_mem (hlt k hkk).2)⟩)
    exact Prod.ext (hinj hd (hlt j hj).1 (hlt k hkk).1 this.1) (hinj ho (hlt j hj).2 (hlt k hkk).2 this.2)
  obtain ⟨g, h1, _, _, h4⟩ := hk ord h
  obtain ⟨g', h2, _, _, h5⟩ := hk ord' h'
  have e1 := h4 hw
  have e2 := h5 hw
  have heq : Dfa.prodOf d o comb ks g = Dfa.prodOf d o comb ks g' := by
    unfold Dfa.prodOf
    congr 1
    apply List.map_congr_left
    intro k hkk
    rw [e1 k hkk, e2 k hkk]
  refine ⟨_, h1, by rw [h2, heq], ?_⟩
  intro s hsm
  obtain ⟨k, hkk, rfl⟩ := List.mem_map.1 hsm
  refine ⟨_, Dfa.state_mem (hlt k hkk).1, _, Dfa.state_mem (hlt k hkk).2, ?_, rfl⟩
  dsimp only
  rw [e1 k hkk]
  simp [Dfa.pairName]

example : (∀ s ∈ oddA.states, ',' ∉ s.name) ∧ SameElems oddA.alphabet endsB.alphabet ∧
    ((Dfa.union id oddA endsB).map fun r => r.map fun d => d.states.map (·.name)) =
      some (some [c!"(e,n)", c!"(e,y)", c!"(o,n)", c!"(o,y)"]) := by
  refine ⟨by decide, ?_, by decide +kernel⟩
  intro e; simp [oddA, endsB, or_comm]

/-- Names with commas. -/
private def commas1 : Dfa :=
  { alphabet := [s 'a'], states := [⟨c!"x", true, false, [1]⟩, ⟨c!"x,x", false, true, [0]⟩], initialState := 0 }

/-- Names with commas. -/
private def commas2 : Dfa :=
  { alphabet := [s 'a'], states := [⟨c!"x,x", true, false, [1]⟩, ⟨c!"x", false, true, [1]⟩], initialState := 0 }

/-- **C86** With commas in names of both DFAs (the table format allows this) the names of a union can change from run to run: `0` and
`1` are assigned in the order of a hash set. -/
theorem C86_product_names_false : ¬ ∀ (ord ord' : List (Nat × Nat) → List (Nat × Nat)), (∀ l, (ord l).Perm l) →
    (∀ l, (ord' l).Perm l) → ∀ d o : Dfa, d.WF → o.WF → Dfa.union ord d o = Dfa.union ord' d o := by
  intro hall
  have := hall id List.reverse (fun _ => .rfl) (fun l => l.reverse_perm) commas1 commas2 (Dfa.wf_of_wfB (by decide))
    (Dfa.wf_of_wfB (by decide))
  revert this
  decide +kernel

/-- **C86** The NFA product (also intersection): two runs give results that differ at most in the names of the states. -/
theorem C86_nfa_product (ord ord' : List Nfa.OPair → List Nfa.OPair) (h : ∀ l, (ord l).Perm l) (h' : ∀ l, (ord' l).Perm l)
    (n o : Nfa) (hn : n.WF) (ho : o.WF) (hs : SameElems n.alphabet o.alphabet)
    (comb : Option NfaState → Option NfaState → Bool) :
    ∃ p p', Nfa.product ord n o comb = some (some p) ∧ Nfa.product ord' n o comb = some (some p') ∧ p.SameButNames p' := by
  obtain ⟨ks, _, hk⟩ := Nfa.product_eq_all hn ho hs comb
  obtain ⟨g, h1, _⟩ := hk ord h
  obtain ⟨g', h2, _⟩ := hk ord' h'
  refine ⟨_, _, h1, h2, rfl, rfl, ?_⟩
  unfold Nfa.prodN
  exact List.forall₂_map_left_iff.2 (List.forall₂_map_right_iff.2 (List.forall₂_same.2 fun _ _ => ⟨rfl, rfl, rfl, rfl⟩))

/-- **C86** If moreover no name in the first NFA (or none in the second) contains a comma, and no state is called `none`, the results
are the same. -/
theorem C86_nfa_product_names (ord ord' : List Nfa.OPair → List Nfa.OPair) (h : ∀ l, (ord l).Perm l)
    (h' : ∀ l, (ord' l).Perm l) (n o : Nfa) (hn : n.WF) (ho : o.WF) (hs : SameElems n.alphabet o.alphabet)
    (comb : Option NfaState → Option NfaState → Bool)
    (hc : (∀ s ∈ n.states, ',' ∉ s.name) ∨ ∀ s ∈ o.states, ',' ∉ s.name)
    (hnone : ∀ s ∈ n.states ++ o.states, s.name ≠ c!"none") :
    ∃ p, Nfa.product ord n o comb = some (some p) ∧ Nfa.product ord' n o comb = some (some p) := by
  obtain ⟨ks, hks, hk⟩ := Nfa.product_eq_all hn ho hs comb
  have hlt : ∀ k ∈ ks, Nfa.PBound n o k := by
    intro k hkk
    have := (hks.mem_iff k).1 hkk
    clear hkk
    induction this with
    | refl => exact ⟨fun q hq => by cases hq; exact hn.init_lt, fun q hq => by cases hq; exact ho.init_lt⟩
    | tail _ h2 ih => exact Nfa.psucc_bound hn ho hs ih h2
  have hinj : ∀ {n : Nfa}, n.WF → (∀ s ∈ n.states, s.name ≠ c!"none") → ∀ {p q : Option Nat},
      (∀ i, p = some i → i < n.states.length) → (∀ i, q = some i → i < n.states.length) →
      (p.map (fun s => (n.state s).name)).getD Nfa.noneName = (q.map (fun s => (n.state s).name)).getD Nfa.noneName → p = q := by
    intro n hn hno p q hp hq he
    cases p with
    | none =>
      cases q with
      | none => rfl
      | some j => exact absurd he.symm (hno _ (Nfa.state_mem (hq j rfl)))
    | some i =>
      cases q with
      | none => exact absurd he (hno _ (Nfa.state_mem (hp i rfl)))
      | some j =>
        congr 1
        refine (List.getElem?_inj (by simpa using hp i rfl) hn.names_nodup).1 ?_
        rw [List.getElem?_map, List.getElem?_map, Nfa.getElem?_state (hp i rfl), Nfa.getElem?_state (hq j rfl)]
        simpa using he
  have hcomma : ∀ {n : Nfa}, (∀ s ∈ n.states, ',' ∉ s.name) → ∀ {p : Option Nat}, (∀ i, p = some i → i < n.states.length) →
      ',' ∉ (p.map (fun s => (n.state s).name)).getD Nfa.noneName := by
    intro n hcn p hp
    cases p with
    | none => show ',' ∉ Nfa.noneName; decide
    | some i => exact hcn _ (Nfa.state_mem (hp i rfl))
  have hw : ∀ j ∈ ks, ∀ k ∈ ks, Nfa.wanted n o j = Nfa.wanted n o k → j = k := by
    intro j hj k hkk he
    obtain ⟨j1, j2⟩ := hlt j hj
    obtain ⟨k1, k2⟩ := hlt k hkk
    have := pairName_inj he (by
      rcases hc with hc | hc
      · exact Or.inl ⟨hcomma hc j1, hcomma hc k1⟩
      · exact Or.inr ⟨hcomma hc j2, hcomma hc k2⟩)
    exact Prod.ext (hinj hn (fun s hs => hnone s (List.mem_append_left _ hs)) j1 k1 this.1)
      (hinj ho (fun s hs => hnone s (List.mem_append_right _ hs)) j2 k2 this.2)
  obtain ⟨g, h1, _, _, h4⟩ := hk ord h
  obtain ⟨g', h2, _, _, h5⟩ := hk ord' h'
  have heq : Nfa.prodN n o comb ks g = Nfa.prodN n o comb ks g' := by
    unfold Nfa.prodN
    congr 1
    apply List.map_congr_left
    intro k hkk
    rw [h4 hw k hkk, h5 hw k hkk]
  exact ⟨_, h1, by rw [h2, heq]⟩

example : (∀ s ∈ epsNfa.states, ',' ∉ s.name) ∧ (∀ s ∈ epsNfa.states ++ evenA.states, s.name ≠ c!"none") ∧
    SameElems epsNfa.alphabet evenA.alphabet := by
  refine ⟨by decide, by decide, ?_⟩
  intro e; simp [epsNfa, evenA, or_comm]

/-! ## Minimization: names and order -/

/-- **C86** Minimization does not give the same result in every run: the DFA kept names of states and even the order of its states
depend on the order of a hash set, and so does the printed table. (The results are isomorphic: C17.) -/
theorem C86_minimize_false : ¬ ∀ (u m k u' m' k' : List Nat → List Nat), (∀ l, (u l).Perm l) → (∀ l, (m l).Perm l) →
    (∀ l, (k l).Perm l) → (∀ l, (u' l).Perm l) → (∀ l, (m' l).Perm l) → (∀ l, (k' l).Perm l) → ∀ d : Dfa, d.WF →
    (d.minimize u m k).bind Dfa.toTable = (d.minimize u' m' k').bind Dfa.toTable := by
  intro hall
  have hr : ∀ l : List Nat, l.reverse.Perm l := fun l => l.reverse_perm
  have := hall id id id id List.reverse id (fun _ => .rfl) (fun _ => .rfl) (fun _ => .rfl) (fun _ => .rfl) hr (fun _ => .rfl)
    redundant redundant_wf
  revert this
  decide +kernel

example : ((redundant.minimize id id id).map fun d => d.states.map (·.name)) = some [s '0', s '1', s '3'] ∧
    ((redundant.minimize id List.reverse id).map fun d => d.states.map (·.name)) = some [s '0', s '2', s '4'] := by
  decide +kernel

private theorem classPairs_singletons {ord : List Nat → List Nat} (h : ∀ l, (ord l).Perm l) {P : List (List Nat)}
    (hP : ∀ B ∈ P, B.length ≤ 1) : P.flatMap (Dfa.classPairs ord) = [] := by
  rw [List.flatMap_eq_nil_iff]
  intro B hB
  have h1 := (h B).length_eq
  have h2 := hP B hB
  unfold Dfa.classPairs
  cases he : ord B with
  | nil => rfl
  | cons new rest =>
    rw [he, List.length_cons] at h1
    rw [List.eq_nil_of_length_eq_zero (by omega : rest.length = 0)]
    rfl

/-- **C86** If all reachable states are distinguishable, minimization does the same in every run. -/
theorem C86_minimize_partial (u m k u' m' k' : List Nat → List Nat) (hu : ∀ l, (u l).Perm l) (hm : ∀ l, (m l).Perm l)
    (hk : ∀ l, (k l).Perm l) (hu' : ∀ l, (u' l).Perm l) (hm' : ∀ l, (m' l).Perm l) (hk' : ∀ l, (k' l).Perm l) (d : Dfa)
    (hd : d.WF) (hdist : ∀ p q v w, d.Run d.initialState v p → d.Run d.initialState w q → d.Indist p q → p = q) :
    d.minimize u m k = d.minimize u' m' k' ∧ d.minimize u m k = d.removeUnreachableStates u := by
  have key : ∀ u m k : List Nat → List Nat, (∀ l, (u l).Perm l) → (∀ l, (m l).Perm l) → (∀ l, (k l).Perm l) →
      d.minimize u m k = d.removeUnreachableStates u := by
    intro u m k hu hm hk
    obtain ⟨kept, h1, h2, h3, h4⟩ := Dfa.removeUnreachableStates_eq hu hd
    have hwf := Dfa.quot_wf hd h3
    unfold Dfa.minimize
    rw [h4, Option.bind_eq_bind, Option.bind_some]
    have hred : ∀ p < (Dfa.quot d kept id).states.length, ∀ q < (Dfa.quot d kept id).states.length,
        (Dfa.quot d kept id).Ind p q → p = q := by
      have hlen : (Dfa.quot d kept id).states.length = kept.length := by simp [Dfa.quot]
      rw [hlen]
      intro p hp q hq hi
      have e : ∀ (p : Nat) (hp : p < kept.length) (w : Word),
          ((Dfa.quot d kept id).runE p w).map (fun r => ((Dfa.quot d kept id).state r).accepting) =
          (d.runE kept[p] w).map (fun r => (d.state r).accepting) := by
        intro p hp w
        have hm := List.getElem_mem hp
        obtain ⟨e1, e2⟩ := Dfa.quot_id_runE hd h3 hm w
        rw [h3.nodup.idxOf_getElem] at e1
        rw [e1, Option.map_map]
        cases hr : d.runE kept[p] w with
        | none => rfl
        | some r =>
          simp only [Option.map_some, Function.comp_apply]
          rw [Dfa.quot_state (e2 r hr)]
      have hpm := List.getElem_mem hp
      have hqm := List.getElem_mem hq
      obtain ⟨v, hv⟩ := (Dfa.reach_run hd).1 ((h2 _).1 hpm)
      obtain ⟨w, hw⟩ := (Dfa.reach_run hd).1 ((h2 _).1 hqm)
      have heq := hdist _ _ v w hv hw ((Dfa.indist_iff hd (h3.lt _ hpm) (h3.lt _ hqm)).2 (fun w => by
        have := hi w
        rw [e p hp, e q hq] at this
        exact this))
      exact (h3.nodup.getElem_inj_iff).1 heq
    generalize Dfa.quot d kept id = d' at *
    obtain ⟨P, p1, p2⟩ := Dfa.classes_spec hwf
    have hlt : ∀ B ∈ P, ∀ q ∈ B, q < d'.states.length := by
      intro B hB q hq
      have : q ∈ P.flatten := List.mem_flatten.2 ⟨B, hB, hq⟩
      simpa using p2.part.mem_iff.1 this
    have hone : ∀ B ∈ P, B.length ≤ 1 := by
      intro B hB
      match B, hB with
      | [], _ => simp
      | [_], _ => simp
      | x :: y :: l, hB =>
        exfalso
        have hx := hlt _ hB x (by simp)
        have hy := hlt _ hB y (by simp)
        have hi := (p2.same _ hB x (by simp) y hy).1 (by simp)
        have := hred x hx y hy hi
        have hs := p2.sorted _ hB
        rw [List.pairwise_cons] at hs
        have := hs.1 y (by simp)
        omega
    unfold Dfa.mergeNondistinguishableStates
    rw [p1, Option.bind_eq_bind, Option.bind_some]
    dsimp only
    rw [classPairs_singletons hm hone]
    have hk0 : k [] = [] := List.Perm.eq_nil (hk [])
    simp only [List.map_nil, hk0, List.lookup_nil]
    have hr : d'.remapTransitions (fun _ => none) = d' := by
      unfold Dfa.remapTransitions
      simp only [Option.getD_none, List.map_id']
    rw [hr]
    unfold Dfa.removeStates
    have hst : d'.states.mapM (fun s => (s.transitions.mapM (fun t =>
        (binarySearch (List.range d'.states.length) t).toOption)).bind
          (fun tr => some ({ s with transitions := tr } : DfaState))) = some d'.states := by
      have := mapM_some (f := fun s : DfaState => (s.transitions.mapM (fun t =>
        (binarySearch (List.range d'.states.length) t).toOption)).bind
          (fun tr => some ({ s with transitions := tr } : DfaState))) (g := id) (l := d'.states) (by
        intro s hs
        rw [mapM_some (g := id)]
        · simp
        · intro t ht
          have := hwf.targets s hs t ht
          have hmem : t ∈ List.range d'.states.length := List.mem_range.2 this
          simp only [binarySearch, if_pos hmem, Except.toOption, id]
          have := List.nodup_range (n := d'.states.length) |>.idxOf_getElem t (by simpa using this)
          simpa using this)
      simpa using this
    have := congrArg (fun o => o.bind fun st => some { d' with states := st }) hst
    simpa [binarySearch, vecRemoveAll] using this
  exact ⟨by rw [key u m k hu hm hk, key u' m' k' hu' hm' hk', C86_dfa_remove_unreachable u u' hu hu'], key u m k hu hm hk⟩

/-- In `oddA` two of the three states are reachable, and distinguished by the empty word. -/
example : ∀ p q v w, oddA.Run oddA.initialState v p → oddA.Run oddA.initialState w q → oddA.Indist p q → p = q := by
  intro p q v w hv hw hi
  have hp := (Dfa.reach_run oddA_wf).2 ⟨v, hv⟩
  have hq := (Dfa.reach_run oddA_wf).2 ⟨w, hw⟩
  have hmem : ∀ r, oddA.Reach r → r ∈ [0, 1] := by
    intro r hr
    obtain ⟨l, h1, _, h2⟩ := Dfa.reachableStateIdx_spec oddA_wf
    have h3 : oddA.reachableStateIdx = some [0, 1] := by decide
    rw [h3] at h1
    cases h1
    exact (h2 r).2 hr
  have h0 := (Dfa.indist_iff oddA_wf (hp.lt oddA_wf) (hq.lt oddA_wf)).1 hi []
  have hall : ∀ p ∈ [0, 1], ∀ q ∈ [0, 1], Option.map (fun r => (oddA.state r).accepting) (oddA.runE p []) =
      Option.map (fun r => (oddA.state r).accepting) (oddA.runE q []) → p = q := by decide
  exact hall p (hmem p hp) q (hmem q hq) h0

/-- **C86** Exactly then: if two reachable states cannot be told apart by any word, two runs of minimization can keep different
states, already recognised by their names. -/
theorem C86_minimize_iff (d : Dfa) (hd : d.WF) :
    (∀ u m k u' m' k' : List Nat → List Nat, (∀ l, (u l).Perm l) → (∀ l, (m l).Perm l) → (∀ l, (k l).Perm l) →
      (∀ l, (u' l).Perm l) → (∀ l, (m' l).Perm l) → (∀ l, (k' l).Perm l) →
      (d.minimize u m k).map (fun e => e.states.map (·.name)) = (d.minimize u' m' k').map (fun e => e.states.map (·.name))) ↔
    ∀ p q v w, d.Run d.initialState v p → d.Run d.initialState w q → d.Indist p q → p = q := by
  constructor
  · intro hall p q v w hv hw hi
    have hr : ∀ l : List Nat, l.reverse.Perm l := fun l => l.reverse_perm
    have hid : ∀ l : List Nat, (id l).Perm l := fun _ => .rfl
    have heq := hall id id id id List.reverse id hid hid hid hid hr hid
    obtain ⟨kept, h1, h2, h3, h4⟩ := Dfa.removeUnreachableStates_eq hid hd
    have hwf := Dfa.quot_wf hd h3
    have hp := (h2 p).2 ((Dfa.reach_run hd).2 ⟨v, hv⟩)
    have hq := (h2 q).2 ((Dfa.reach_run hd).2 ⟨w, hw⟩)
    have hind := (Dfa.indist_iff hd (h3.lt _ hp) (h3.lt _ hq)).1 hi
    have hlen : (Dfa.quot d kept id).states.length = kept.length := by simp [Dfa.quot]
    have e : ∀ p ∈ kept, ∀ w : Word,
        ((Dfa.quot d kept id).runE (kept.idxOf p) w).map (fun r => ((Dfa.quot d kept id).state r).accepting) =
        (d.runE p w).map (fun r => (d.state r).accepting) := by
      intro p hp w
      obtain ⟨e1, e2⟩ := Dfa.quot_id_runE hd h3 hp w
      rw [e1, Option.map_map]
      cases hr : d.runE p w with
      | none => rfl
      | some r =>
        simp only [Option.map_some, Function.comp_apply]
        rw [Dfa.quot_state (e2 r hr)]
    have hi' : (Dfa.quot d kept id).Ind (kept.idxOf p) (kept.idxOf q) := by
      intro w
      rw [e p hp w, e q hq w]
      exact hind w
    have hpl : kept.idxOf p < (Dfa.quot d kept id).states.length := by rw [hlen]; exact List.idxOf_lt_length_of_mem hp
    have hql : kept.idxOf q < (Dfa.quot d kept id).states.length := by rw [hlen]; exact List.idxOf_lt_length_of_mem hq
    have hmin : ∀ m : List Nat → List Nat, d.minimize id m id = (Dfa.quot d kept id).mergeNondistinguishableStates m id := by
      intro m
      unfold Dfa.minimize
      rw [h4, Option.bind_eq_bind, Option.bind_some]
    rw [hmin, hmin] at heq
    suffices hsuff : kept.idxOf p = kept.idxOf q from (List.idxOf_inj hp).1 hsuff
    revert heq hi' hpl hql
    generalize kept.idxOf p = i
    generalize kept.idxOf q = j
    intro heq hi' hil hjl
    generalize Dfa.quot d kept id = d' at *
    obtain ⟨P, p1, p2⟩ := Dfa.classes_spec hwf
    obtain ⟨k1, s1, m1, q1, r1⟩ := Dfa.merge_eq hid hid hwf p1 p2
    obtain ⟨k2, s2, m2, q2, r2⟩ := Dfa.merge_eq hr hid hwf p1 p2
    rw [r1, r2, Option.map_some, Option.map_some, Option.some.injEq] at heq
    have hn : ∀ (k : List Nat) (f : Nat → Nat), (∀ q ∈ k, q < d'.states.length) →
        (Dfa.quot d' k f).states.map (·.name) = k.map (fun q => (d'.state q).name) := by
      intro k f _
      simp only [Dfa.quot, List.map_map]
      rfl
    rw [hn k1 _ (fun q hq => ((m1 q).1 hq).1), hn k2 _ (fun q hq => ((m2 q).1 hq).1)] at heq
    have hinj : ∀ a < d'.states.length, ∀ b < d'.states.length, (d'.state a).name = (d'.state b).name → a = b := by
      intro a ha b hb hab
      refine (List.getElem?_inj (by simpa using ha) hwf.names_nodup).1 ?_
      rw [List.getElem?_map, List.getElem?_map, Dfa.getElem?_state ha, Dfa.getElem?_state hb]
      simpa using hab
    have hsub : ∀ a ∈ k1, a ∈ k2 := by
      intro a ha
      have h1 : (d'.state a).name ∈ k1.map (fun q => (d'.state q).name) := List.mem_map_of_mem ha
      rw [heq] at h1
      obtain ⟨b, hb, hab⟩ := List.mem_map.1 h1
      rw [← hinj b ((m2 b).1 hb).1 a ((m1 a).1 ha).1 hab]
      exact hb
    obtain ⟨B, hB, hiB⟩ := Dfa.class_exists hid p2 hil
    have hjB : j ∈ B := (p2.same _ hB i hiB j hjl).2 hi'
    have f1 := Dfa.rep_spec hid p2 hB hiB
    have hm1 := Dfa.rep_mem hid p2 hB hiB
    have hk2 := hsub _ ((m1 _).2 ⟨Dfa.rep_lt hid p2 hil, Dfa.rep_rep hid p2 hil⟩)
    have f2 := Dfa.rep_spec hr p2 hB hm1
    rw [((m2 _).1 hk2).2] at f2
    rw [List.head?_reverse] at f2
    have hs := p2.sorted _ hB
    match B, hs with
    | [], _ => simp at hiB
    | [x], _ => simp at hiB hjB; omega
    | x :: y :: l, hs =>
      exfalso
      have e1 : x = Dfa.rep id P i := by simpa using f1
      have hlast : (y :: l).getLast? = some (Dfa.rep id P i) := by simpa using f2
      have := List.mem_of_getLast? hlast
      rw [List.pairwise_cons] at hs
      have := hs.1 _ this
      omega
  · intro h u m k u' m' k' hu hm hk hu' hm' hk'
    rw [(C86_minimize_partial u m k u' m' k' hu hm hk hu' hm' hk' d hd h).1]

/-- In `redundant` the states `1` and `2` are reachable and not distinguishable: runs of minimization differ. -/
example : ¬ ∀ p q v w, redundant.Run redundant.initialState v p → redundant.Run redundant.initialState w q →
    redundant.Indist p q → p = q := by
  intro h
  have := (C86_minimize_iff redundant redundant_wf).2 h id id id id List.reverse id (fun _ => .rfl) (fun _ => .rfl)
    (fun _ => .rfl) (fun _ => .rfl) (fun l => l.reverse_perm) (fun _ => .rfl)
  revert this
  decide +kernel

/-! ## Removing epsilon moves: at most the order of targets -/

/-- **C86** `Nfa::remove_epsilon_moves`: two runs give results that differ at most in the order in which targets are listed; the
subset construction gives the same DFA for both. -/
theorem C86_remove_epsilon_moves (ordT ordT' : Nat → Nat → List Nat → List Nat) (ordD ordD' : List Nat → List Nat)
    (h : ∀ s c l, (ordT s c l).Perm l) (h' : ∀ s c l, (ordT' s c l).Perm l) (hD : ∀ l, (ordD l).Perm l)
    (hD' : ∀ l, (ordD' l).Perm l) (n : Nfa) (hn : n.WF) :
    ∃ p p', n.removeEpsilonMoves ordT ordD = some p ∧ n.removeEpsilonMoves ordT' ordD' = some p' ∧ p.SameButOrder p' ∧
      p.toDfa = p'.toDfa := by
  obtain ⟨p, hp, _⟩ := C25_remove_epsilon_moves ordT h ordD hD n hn
  rcases removeEpsilonMoves_same (n := n) h h' hD hD' with ⟨h1, _⟩ | ⟨a, b, h1, h2, h3⟩
  · rw [hp] at h1; cases h1
  · exact ⟨a, b, h1, h2, h3, toDfa_same h3⟩

/-- **C86** `Nfa::optimize`: two runs give results that differ at most in the order in which targets are listed; the subset
construction gives the same DFA for both. -/
theorem C86_optimize (ordU ordU' : List Nat → List Nat) (ordT ordT' : Nat → Nat → List Nat → List Nat)
    (ordD ordD' : List Nat → List Nat) (hU : ∀ l, (ordU l).Perm l) (hU' : ∀ l, (ordU' l).Perm l)
    (h : ∀ s c l, (ordT s c l).Perm l) (h' : ∀ s c l, (ordT' s c l).Perm l) (hD : ∀ l, (ordD l).Perm l)
    (hD' : ∀ l, (ordD' l).Perm l) (n : Nfa) (hn : n.WF) :
    ∃ p p', n.optimize ordU ordT ordD = some p ∧ n.optimize ordU' ordT' ordD' = some p' ∧ p.SameButOrder p' ∧
      p.toDfa = p'.toDfa := by
  obtain ⟨m, h1, h2, _⟩ := C27_nfa_remove_unreachable ordU hU n hn
  unfold Nfa.optimize
  rw [← C86_nfa_remove_unreachable ordU ordU' hU hU' n, h1]
  exact C86_remove_epsilon_moves ordT ordT' ordD ordD' h h' hD hD' m h2

example : ((epsNfa.removeEpsilonMoves (fun _ _ => List.reverse) id).map fun p => p.states.map (·.transitions)) ≠
    ((epsNfa.removeEpsilonMoves (fun _ _ => id) id).map fun p => p.states.map (·.transitions)) ∧
    (epsNfa.removeEpsilonMoves (fun _ _ => List.reverse) id).bind Nfa.toDfa =
      (epsNfa.removeEpsilonMoves (fun _ _ => id) id).bind Nfa.toDfa := by decide +kernel

/-- **C86** The printed table of an NFA without epsilon moves can change from run to run. -/
theorem C86_remove_epsilon_false : ¬ ∀ (ordT ordT' : Nat → Nat → List Nat → List Nat) (ordD ordD' : List Nat → List Nat),
    (∀ s c l, (ordT s c l).Perm l) → (∀ s c l, (ordT' s c l).Perm l) → (∀ l, (ordD l).Perm l) → (∀ l, (ordD' l).Perm l) →
    ∀ n : Nfa, n.WF → (n.removeEpsilonMoves ordT ordD).bind Nfa.toTable = (n.removeEpsilonMoves ordT' ordD').bind Nfa.toTable := by
  intro hall
  have := hall (fun _ _ => id) (fun _ _ => List.reverse) id id (fun _ _ _ => .rfl) (fun _ _ l => l.reverse_perm) (fun _ => .rfl)
    (fun _ => .rfl) epsNfa epsNfa_wf
  revert this
  decide +kernel

/-! ## The command line tool -/

/-- **C86** The commands `union`, `intersection`, `difference` and `symmetric-difference` without `--minimized` on two DFA files: if no
name in the first file (or none in the second) contains a comma, every run prints the same. -/
theorem C86_cli_binary_op (env : Env) (ord ord' : List (Nat × Nat) → List (Nat × Nat)) (h : ∀ l, (ord l).Perm l)
    (h' : ∀ l, (ord' l).Perm l) (o1 o2 o3 o1' o2' o3' : MinOrd) (noLog : Bool) (args : BinaryOpArgs) (op : BinaryOperation)
    (hmin : args.minimized = false) (d1 d2 : Dfa) (h1 : loadFile env args.first args.type = .ok (.dfa d1))
    (h2 : loadFile env args.second (args.secondType.getD args.type) = .ok (.dfa d2))
    (hc : (∀ s ∈ d1.states, ',' ∉ s.name) ∨ ∀ s ∈ d2.states, ',' ∉ s.name) :
    binaryOp env ord o1 o2 o3 noLog args op = binaryOp env ord' o1' o2' o3' noLog args op := by
  have w1 : d1.WF := (loadFile_valid h1).1
  have w2 : d2.WF := (loadFile_valid h2).1
  have happ : op.apply ord d1 d2 = op.apply ord' d1 d2 := by
    have key : ∀ comb, Dfa.product ord d1 d2 comb = Dfa.product ord' d1 d2 comb := by
      intro comb
      by_cases hs : SameElems d1.alphabet d2.alphabet
      · obtain ⟨p, e1, e2, _⟩ := C86_dfa_product_names ord ord' h h' d1 d2 w1 w2 hs comb hc
        rw [e1, e2]
      · have := mt (alphabetEqual_iff w1.alphabet_nodup w2.alphabet_nodup).1 hs
        unfold Dfa.product
        rw [Bool.eq_false_iff.2 this]; rfl
    cases op <;> exact key _
  have hop : ∀ (o : MinOrd) (i : Nat) (d : Dfa), operand o noLog false i (.dfa d) = some (d, []) := fun _ _ _ => rfl
  have hshow : ∀ c, showCombined o3 noLog op args c = showCombined o3' noLog op args c := by
    intro c; unfold showCombined; rw [hmin]; rfl
  unfold binaryOp
  rw [h1, h2, hmin]
  simp only [hop, hshow, Option.bind_eq_bind, Option.bind_some, happ]

example : (binaryOp demo id revOrd revOrd revOrd true ⟨.dfa, none, .regex, false, none, c!"/x/min.dfa", c!"odd.dfa", none⟩ .union).map
    (·.lines) = some [.out c!"          a     b \n→   (n,e) (n,o) (y,e) \n  * (y,e) (n,o) (y,e) \n  * (n,o) (n,e) (y,o) \n  * (y,o) (n,e) (y,o) "] := by decide +kernel

/-- **C86** With `--minimized` two runs can print different tables. -/
theorem C86_cli_minimized_false : ¬ ∀ (env : Env) (ord : List (Nat × Nat) → List (Nat × Nat)) (o1 o2 o3 o3' : MinOrd),
    (∀ l, (ord l).Perm l) → o1.Valid → o2.Valid → o3.Valid → o3'.Valid → ∀ (args : BinaryOpArgs) (op : BinaryOperation),
    (binaryOp env ord o1 o2 o3 true args op).map (fun e => outs e.lines) =
      (binaryOp env ord o1 o2 o3' true args op).map (fun e => outs e.lines) := by
  intro hall
  have := hall demo id revOrd revOrd revOrd ⟨id, id, id⟩ (fun _ => .rfl) revOrd_valid revOrd_valid revOrd_valid
    ⟨fun _ => .rfl, fun _ => .rfl, fun _ => .rfl⟩
    ⟨.dfa, none, .regex, true, none, c!"/x/min.dfa", c!"/x/big.dfa", none⟩ .difference
  revert this
  decide +kernel

/-! ## Instances of the theorems of this file -/

example := C86_dfa_remove_unreachable List.reverse List.reverse (fun l => List.reverse_perm l) (fun l => List.reverse_perm l)
  Samples.redundant
example := C86_dfa_product List.reverse List.reverse (fun l => List.reverse_perm l) (fun l => List.reverse_perm l) Samples.redundant
  Samples.oddA Samples.redundant_wf Samples.oddA_wf (by intro e; simp [Samples.epsNfa, Samples.evenA, Samples.redundant, Samples.endsB,
  Samples.oddA, or_comm]) (fun p q => p.accepting && !q.accepting)
example := C86_nfa_product List.reverse List.reverse (fun l => List.reverse_perm l) (fun l => List.reverse_perm l) Samples.epsNfa
  Samples.evenA Samples.epsNfa_wf Samples.evenA_wf (by intro e; simp [Samples.epsNfa, Samples.evenA, Samples.redundant, Samples.endsB,
  Samples.oddA, or_comm]) (fun p q => p.isSome && q.isNone)
example := C86_remove_epsilon_moves (fun _ _ l => l.reverse) (fun _ _ l => l.reverse) List.reverse List.reverse (fun _ _ l =>
  List.reverse_perm l) (fun _ _ l => List.reverse_perm l) (fun l => List.reverse_perm l) (fun l => List.reverse_perm l) Samples.epsNfa
  Samples.epsNfa_wf

end Dandy
