import Verif.Model.AlgCostNfa
import Verif.Spec.AlgCost
import Verif.Proofs.AlgCost
import Verif.Proofs.ToDfa
import Mathlib.Data.List.Perm.Subperm
/-! # The work of the algorithms on NFAs: helper lemmas for C93 (evaluators, subset construction, equivalence) -/

namespace Dandy
namespace Nfa

/-- The part of one state in the size of the table. -/
def wt (n : Nfa) (q : Nat) : Nat :=
  1 + (n.state q).epsilonTransitions.length + ((n.state q).transitions.map (fun ts => 1 + ts.length)).sum

theorem range_wt (n : Nfa) : ((List.range n.states.length).map n.wt).sum = n.tableSize := by
  have : (List.range n.states.length).map n.wt =
      n.states.map (fun s => 1 + s.epsilonTransitions.length + (s.transitions.map (fun ts => 1 + ts.length)).sum) := by
    apply List.ext_getElem
    · simp
    · intro i h1 h2
      simp only [List.length_map, List.length_range] at h1
      simp [wt, state, h1]
  rw [this, tableSize]

theorem sum_mono {α : Type} {l : List α} {f g : α → Nat} (h : ∀ x ∈ l, f x ≤ g x) : (l.map f).sum ≤ (l.map g).sum := by
  induction l with
  | nil => simp
  | cons a l ih =>
    have h1 := ih (fun x hx => h x (by simp [hx]))
    have h2 := h a (by simp)
    simp only [List.map_cons, List.sum_cons]
    omega

theorem wt_sum_le {n : Nfa} {S : List Nat} (h1 : S.Nodup) (h2 : ∀ x ∈ S, x < n.states.length) : (S.map n.wt).sum ≤ n.tableSize := by
  rw [← range_wt]
  have hs : S.Subperm (List.range n.states.length) := List.subperm_of_subset h1 (fun x hx => List.mem_range.2 (h2 x hx))
  obtain ⟨l, hp, hl⟩ := hs
  have h1 : (S.map n.wt).sum = (l.map n.wt).sum := ((hp.map n.wt).sum_eq).symm
  have h2 : (l.map n.wt).sum ≤ ((List.range n.states.length).map n.wt).sum := (hl.map n.wt).sum_le_sum (by simp)
  omega

theorem sum_le_table {n : Nfa} {S : List Nat} (h1 : S.Nodup) (h2 : ∀ x ∈ S, x < n.states.length) {f : Nat → Nat} (hf : ∀ q, f q ≤ n.wt q) :
    (S.map f).sum ≤ n.tableSize := (sum_mono (fun q _ => hf q)).trans (wt_sum_le h1 h2)

theorem wt_le_table {n : Nfa} {q : Nat} (h : q < n.states.length) : n.wt q ≤ n.tableSize := by
  have := wt_sum_le (n := n) (S := [q]) (by simp) (by simpa using h)
  simpa using this

theorem states_le_table (n : Nfa) : n.states.length ≤ n.tableSize := by
  have h := sum_le_table (n := n) (S := List.range n.states.length) List.nodup_range (fun x hx => List.mem_range.1 hx)
    (f := fun _ => 1) (fun q => by unfold wt; omega)
  rw [Dfa.sum_const, List.length_range] at h
  omega

theorem alphabet_lt_table {n : Nfa} (hn : n.WF) : n.alphabet.length + 1 ≤ n.tableSize := by
  have h1 := wt_le_table hn.init_lt
  have h2 := hn.row_len _ (state_mem hn.init_lt)
  have h3 : (n.state n.initialState).transitions.length ≤ ((n.state n.initialState).transitions.map (fun ts => 1 + ts.length)).sum := by
    generalize (n.state n.initialState).transitions = l
    induction l with
    | nil => simp
    | cons a l ih => simp only [List.map_cons, List.sum_cons, List.length_cons]; omega
  unfold wt at h1
  omega

theorem mem_sum_le {l : List (List Nat)} {a : List Nat} (h : a ∈ l) : 1 + a.length ≤ (l.map (fun ts => 1 + ts.length)).sum := by
  induction l with
  | nil => simp at h
  | cons b l ih =>
    simp only [List.map_cons, List.sum_cons]
    rcases List.mem_cons.1 h with rfl | h
    · omega
    · have := ih h; omega

theorem row_le_wt (n : Nfa) (q i : Nat) : 1 + ((n.state q).transitions.getD i []).length ≤ n.wt q := by
  unfold wt
  by_cases h : i < (n.state q).transitions.length
  · have hm : (n.state q).transitions.getD i [] ∈ (n.state q).transitions := by
      rw [List.getD_eq_getElem?_getD, List.getElem?_eq_getElem h]; exact List.getElem_mem h
    have := mem_sum_le hm
    omega
  · rw [List.getD_eq_getElem?_getD, List.getElem?_eq_none (by omega)]
    simp only [Option.getD_none, List.length_nil]
    omega

theorem eps_le_wt (n : Nfa) (q : Nat) : 1 + (n.state q).epsilonTransitions.length ≤ n.wt q := by unfold wt; omega

theorem closureRound_length (n : Nfa) (cur : List Nat) :
    (n.closureRound cur).length ≤ (cur.map (fun s => 1 + (n.state s).epsilonTransitions.length)).sum := by
  refine (List.length_filter_le _ _).trans ?_
  rw [List.length_flatMap]
  exact sum_mono (fun q _ => by omega)

theorem includeClosureCost_le {n : Nfa} (hn : n.WF) : ∀ (k : Nat) (cur : List Nat), cur.Pairwise (· < ·) → (∀ x ∈ cur, x < n.states.length) →
    n.includeClosureCost k cur ≤ k * (1 + 2 * n.tableSize)
  | 0, _, _, _ => by simp [includeClosureCost]
  | k + 1, cur, hs, hlt => by
    rw [includeClosureCost, Nat.succ_mul]
    have h1 := sum_le_table (sorted_nodup hs) hlt (n.eps_le_wt)
    have h2 := n.closureRound_length cur
    split
    · omega
    · have hs' := sorted_sextend (l := n.closureRound cur) hs
      have hlt' : ∀ x ∈ sextend cur (n.closureRound cur), x < n.states.length := by
        intro x hx
        rw [mem_sextend] at hx
        rcases hx with hx | hx
        · exact hlt x hx
        · obtain ⟨⟨s, _, h2⟩, _⟩ := mem_closureRound.1 hx
          exact ep_lt hn h2
      have := includeClosureCost_le hn k _ hs' hlt'
      omega

/-- The numbers used in all bounds. -/
structure Small (n : Nfa) : Prop where
  pos : 1 ≤ n.tableSize
  states : n.states.length ≤ n.tableSize
  alph : n.alphabet.length + 1 ≤ n.tableSize
  sq : n.tableSize ≤ n.tableSize ^ 2

theorem small {n : Nfa} (hn : n.WF) : n.Small := by
  have := n.states_le_table
  have := alphabet_lt_table hn
  exact ⟨by omega, by omega, by omega, by nlinarith⟩

theorem closureCost_sq {n : Nfa} (hn : n.WF) {cur : List Nat} (hs : cur.Pairwise (· < ·)) (hlt : ∀ x ∈ cur, x < n.states.length) :
    n.includeClosureCost (n.states.length + 1) cur ≤ 6 * n.tableSize ^ 2 := by
  obtain ⟨h1, h2, h3, h4⟩ := small hn
  refine (includeClosureCost_le hn _ _ hs hlt).trans ?_
  refine (Nat.mul_le_mul (show n.states.length + 1 ≤ 2 * n.tableSize by omega) (show 1 + 2 * n.tableSize ≤ 3 * n.tableSize by omega)).trans ?_
  exact le_of_eq (by ring)

theorem evaluatorCost_le {n : Nfa} (hn : n.WF) : n.evaluatorCost ≤ 7 * n.tableSize ^ 2 := by
  obtain ⟨h1, h2, h3, h4⟩ := small hn
  have := closureCost_sq hn (cur := [n.initialState]) (by simp) (by simpa using hn.init_lt)
  rw [evaluatorCost]; omega

theorem IsAfter.length_le {n : Nfa} (hn : n.WF) {S : List Nat} (h : n.SetInv S) : S.length ≤ n.tableSize := by
  obtain ⟨w, h⟩ := h
  exact (nodup_length_le (sorted_nodup h.1) (h.lt hn)).trans n.states_le_table

theorem sortCost_le {r T : Nat} (h : r ≤ T) : sortCost r ≤ T + T ^ 2 := by
  rw [sortCost]
  have := log2_le r
  refine (Nat.mul_le_mul h (show 1 + Nat.log2 r ≤ 1 + T by omega)).trans (le_of_eq (by ring))

theorem keyCost_le {r T : Nat} (h : r ≤ T) (h1 : 1 ≤ T) : keyCost r ≤ 5 * T ^ 2 := by
  have := sortCost_le h
  have : T ≤ T ^ 2 := by nlinarith
  rw [keyCost]; omega

theorem stepCost_le {n : Nfa} (hn : n.WF) {S : List Nat} (hS : n.SetInv S) (b : Bool) (e : Str) :
    (NfaEval.mk n S b).stepCost e ≤ 8 * n.tableSize ^ 2 := by
  obtain ⟨h1, h2, h3, h4⟩ := small hn
  rw [NfaEval.stepCost]
  dsimp only
  split
  · omega
  · rename_i i hi
    obtain ⟨w, hw⟩ := hS
    have e1 := sum_le_table (sorted_nodup hw.1) (hw.lt hn) (fun q => n.row_le_wt q i)
    have e2 := closureCost_sq hn (cur := sofList (S.flatMap (fun s => (n.state s).transitions.getD i []))) (sorted_sofList _) (by
      intro x hx
      rw [mem_sofList, List.mem_flatMap] at hx
      obtain ⟨s, _, h⟩ := hx
      exact tr_lt hn h)
    have key : 1 + ((S.map (fun q => 1 + ((n.state q).transitions.getD i []).length)).sum + n.includeClosureCost (n.states.length + 1)
      (sofList (S.flatMap (fun s => (n.state s).transitions.getD i [])))) ≤ 8 * n.tableSize ^ 2 := by omega
    exact le_trans (le_of_eq (by dsimp only)) key

theorem ev_step {n : Nfa} (hn : n.WF) {S : List Nat} (hS : n.SetInv S) (b : Bool) (e : Str) :
    ∃ S' b', ((NfaEval.mk n S b).step e).1 = ⟨n, S', b'⟩ ∧ n.SetInv S' := by
  cases hi : revGet n.alphabet e with
  | none => exact ⟨S, true, by rw [NfaEval.step_unknown hi], hS⟩
  | some i => exact ⟨_, b, by rw [NfaEval.step_known hi], hS.nset hn hi⟩

theorem stepsCost_le {n : Nfa} (hn : n.WF) : ∀ (w : List Str) {S : List Nat} (_ : n.SetInv S) (b : Bool),
    (NfaEval.mk n S b).stepsCost w ≤ 1 + w.length * (9 * n.tableSize ^ 2)
  | [], S, _, b => by simp [NfaEval.stepsCost]
  | e :: w, S, hS, b => by
    obtain ⟨h1, h2, h3, h4⟩ := small hn
    have hc := stepCost_le hn hS b e
    rw [NfaEval.stepsCost, List.length_cons, Nat.add_mul, Nat.one_mul]
    obtain ⟨S', b', he, hS'⟩ := ev_step hn hS b e
    cases hst : (NfaEval.mk n S b).step e with
    | mk ev' r =>
      rw [hst] at he
      dsimp only at he
      subst he
      cases r with
      | none => dsimp only; omega
      | some _ =>
        have := stepsCost_le hn w hS' b'
        dsimp only; omega

theorem setInv_iset {n : Nfa} (hn : n.WF) : n.SetInv n.iset := ⟨[], isAfter_iset hn⟩

theorem acceptingCost_le {n : Nfa} (hn : n.WF) {S : List Nat} (hS : n.SetInv S) (b : Bool) :
    (NfaEval.mk n S b).acceptingCost ≤ 3 * n.tableSize := by
  have := IsAfter.length_le hn hS
  have := (small hn).pos
  rw [NfaEval.acceptingCost]
  split
  · omega
  · show 1 + 2 * S.length ≤ 3 * n.tableSize; omega

theorem tryForEach_inv {n : Nfa} (hn : n.WF) : ∀ (w : List Str) {S : List Nat} (_ : n.SetInv S) (b : Bool),
    ∃ S' b', ((NfaEval.mk n S b).tryForEach w).1 = ⟨n, S', b'⟩ ∧ n.SetInv S'
  | [], S, hS, b => ⟨S, b, rfl, hS⟩
  | e :: w, S, hS, b => by
    obtain ⟨S', b', he, hS'⟩ := ev_step hn hS b e
    rw [NfaEval.tryForEach]
    cases hst : (NfaEval.mk n S b).step e with
    | mk ev' r =>
      rw [hst] at he
      dsimp only at he
      subst he
      cases r with
      | none => exact ⟨S', b', rfl, hS'⟩
      | some _ => exact tryForEach_inv hn w hS' b'

theorem acceptsCost_le {n : Nfa} (hn : n.WF) (w : List Str) : n.acceptsCost w ≤ 12 * (w.length + 1) * n.tableSize ^ 2 := by
  obtain ⟨h1, h2, h3, h4⟩ := small hn
  have e1 := evaluatorCost_le hn
  have e2 := stepsCost_le hn w (setInv_iset hn) false
  have e3 : ((NfaEval.new n).stepMultiple w).1.acceptingCost ≤ 3 * n.tableSize := by
    obtain ⟨S', b', he, hS'⟩ := tryForEach_inv hn w (setInv_iset hn) false
    rw [NfaEval.stepMultiple, NfaEval.new_eq]
    cases hst : (NfaEval.mk n n.iset false).tryForEach w with
    | mk ev' r =>
      rw [hst] at he
      dsimp only at he
      subst he
      cases r with
      | none => exact acceptingCost_le hn hS' true
      | some _ => exact acceptingCost_le hn hS' b'
  rw [acceptsCost, NfaEval.new_eq]
  rw [NfaEval.new_eq] at e3
  generalize hQ : n.tableSize ^ 2 = Q at *
  have : 12 * (w.length + 1) * Q = 12 * Q + 3 * (w.length * Q) + w.length * (9 * Q) := by ring
  omega

theorem cloneCost_le {n : Nfa} (hn : n.WF) {S : List Nat} (hS : n.SetInv S) (b : Bool) : (NfaEval.mk n S b).cloneCost ≤ 2 * n.tableSize := by
  have := IsAfter.length_le hn hS
  have := (small hn).pos
  rw [NfaEval.cloneCost]; dsimp only; omega

theorem stepAllCost_le {n : Nfa} (hn : n.WF) {S : List Nat} (hS : n.SetInv S) :
    (n.ev S).stepAllCost ≤ 14 * ((n.alphabet.length + 1) * n.tableSize ^ 2) := by
  obtain ⟨h1, h2, h3, h4⟩ := small hn
  have e1 := cloneCost_le hn hS false
  have e2 := Dfa.sum_map_le (l := n.alphabet) (f := fun e => 1 + (n.ev S).cloneCost + (n.ev S).stepCost e) (B := 11 * n.tableSize ^ 2) (by
    intro e _
    have := stepCost_le hn hS false e
    have e1' : (n.ev S).cloneCost ≤ 2 * n.tableSize := e1
    have : (n.ev S).stepCost e ≤ 8 * n.tableSize ^ 2 := this
    omega)
  rw [NfaEval.stepAllCost]
  have e1' : (n.ev S).cloneCost ≤ 2 * n.tableSize := e1
  have e2' : ((n.ev S).nfa.alphabet.map (fun e => 1 + (n.ev S).cloneCost + (n.ev S).stepCost e)).sum ≤ n.alphabet.length * (11 * n.tableSize ^ 2) := e2
  generalize hQ : n.tableSize ^ 2 = Q at *
  have : 14 * ((n.alphabet.length + 1) * Q) = 14 * Q + 3 * (n.alphabet.length * Q) + n.alphabet.length * (11 * Q) := by ring
  omega

theorem subsetWork_le {n : Nfa} (hn : n.WF) {S : List Nat} (hS : n.SetInv S) :
    subsetWork (n.ev S) ≤ 43 * ((n.alphabet.length + 1) * n.tableSize ^ 2) := by
  obtain ⟨h1, h2, h3, h4⟩ := small hn
  have e1 := stepAllCost_le hn hS
  have e2 := Dfa.sum_map_le (l := (n.ev S).stepAll) (f := fun ev' => 1 + ev'.acceptingCost + 3 * keyCost ev'.cur.length) (B := 19 * n.tableSize ^ 2) (by
    intro ev' hev
    obtain ⟨e, i, hi, rfl⟩ := mem_stepAll.1 hev
    have hS' := hS.nset hn hi
    have a1 := acceptingCost_le hn hS' false
    have a2 := keyCost_le (IsAfter.length_le hn hS') h1
    have a1' : (n.ev (n.nset S i)).acceptingCost ≤ 3 * n.tableSize := a1
    have a2' : keyCost (n.ev (n.nset S i)).cur.length ≤ 5 * n.tableSize ^ 2 := a2
    omega)
  have hl : (n.ev S).stepAll.length = n.alphabet.length := by rw [stepAll_ev, List.length_map]
  rw [hl] at e2
  have e3 := keyCost_le (IsAfter.length_le hn hS) h1
  rw [subsetWork]
  have e3' : keyCost (n.ev S).cur.length ≤ 5 * n.tableSize ^ 2 := e3
  generalize hQ : n.tableSize ^ 2 = Q at *
  have : 43 * ((n.alphabet.length + 1) * Q) = 14 * ((n.alphabet.length + 1) * Q) + 29 * Q + 10 * (n.alphabet.length * Q) + n.alphabet.length * (19 * Q) := by ring
  omega

/-- The exploration of `to_dfa`, as in `toDfa_eq`. -/
theorem explore_sets {n : Nfa} (hn : n.WF) : ∃ out seen,
    explore NfaEval.currentStatesIdx NfaEval.stepAll (fun _ => true) (2 ^ n.states.length + 1) [NfaEval.new n] [NfaEval.new n] [] =
      some (some (out, seen)) ∧ Explored NfaEval.currentStatesIdx NfaEval.stepAll (fun _ => true) (NfaEval.new n) out seen := by
  rcases explore_spec (key := NfaEval.currentStatesIdx) (succ := NfaEval.stepAll) (ok := fun _ => true)
    (fun p => ∃ S, p = n.ev S ∧ n.SetInv S) (s0 := NfaEval.new n) (List.range n.states.length).sublists
    (fuel := 2 ^ n.states.length + 1)
    ⟨n.iset, rfl, [], isAfter_iset hn⟩
    (by
      rintro _ ⟨S, rfl, hS⟩ t ht
      obtain ⟨e, i, hi, rfl⟩ := mem_stepAll.1 ht
      exact ⟨_, rfl, hS.nset hn hi⟩)
    (by
      rintro _ _ ⟨S, rfl, _⟩ ⟨T, rfl, _⟩ h
      simp only [NfaEval.currentStatesIdx] at h
      rw [h])
    (by rintro _ ⟨S, rfl, h⟩; exact h.keys hn)
    (by simp) with ⟨_, s, _, hs⟩ | ⟨out, seen, he, hE⟩
  · cases hs
  · exact ⟨out, seen, he, hE⟩

theorem seen_inv {n : Nfa} (hn : n.WF) {out seen : List NfaEval}
    (hE : Explored NfaEval.currentStatesIdx NfaEval.stepAll (fun _ => true) (NfaEval.new n) out seen) :
    ∀ ev ∈ seen, ∃ S, ev = n.ev S ∧ n.SetInv S := by
  intro ev hev
  rw [hE.mem_iff, NfaEval.new_eq] at hev
  obtain ⟨w, T, h1, rfl⟩ := ev_reach.1 hev
  exact ⟨T, rfl, w, by simpa using isAfter_setE hn (isAfter_iset hn) h1⟩

theorem seen_length {n : Nfa} (hn : n.WF) {out seen : List NfaEval} {d : Dfa} (hd : n.toDfa = some d)
    (hE : Explored NfaEval.currentStatesIdx NfaEval.stepAll (fun _ => true) (NfaEval.new n) out seen) :
    d.states.length = seen.length := by
  obtain ⟨ks, h1, h2⟩ := toDfa_eq hn
  rw [h1, Option.some.injEq] at hd
  have : d.states.length = ks.length := by rw [← hd]; simp [subsetOf]
  rw [this, ← List.length_map (f := NfaEval.currentStatesIdx)]
  apply List.Perm.length_eq
  rw [List.perm_ext_iff_of_nodup h2.nodup hE.keys_nodup]
  intro S
  rw [h2.mem_iff, List.mem_map]
  constructor
  · rintro ⟨w, hw⟩
    refine ⟨n.ev S, ?_, rfl⟩
    rw [hE.mem_iff, NfaEval.new_eq]
    exact ev_reach.2 ⟨w, S, hw, rfl⟩
  · rintro ⟨ev, hev, rfl⟩
    rw [hE.mem_iff, NfaEval.new_eq] at hev
    obtain ⟨w, T, h1, rfl⟩ := ev_reach.1 hev
    exact ⟨w, h1⟩

theorem toDfaCost_le {n : Nfa} (hn : n.WF) {d : Dfa} (hd : n.toDfa = some d) :
    n.toDfaCost ≤ 60 * ((d.states.length + 1) * ((n.alphabet.length + 1) * n.tableSize ^ 2)) := by
  obtain ⟨h1, h2, h3, h4⟩ := small hn
  obtain ⟨out, seen, he, hE⟩ := explore_sets hn
  have hlen := seen_length hn hd hE
  have hinv := seen_inv hn hE
  have hc := exploreCost_eq (test := fun _ => 0) (work := subsetWork) _ _ _ _ _ _ he
  simp only [List.map_nil, List.sum_nil, Nat.add_zero] at hc
  have hw := Dfa.sum_map_le (l := out) (f := fun s => 1 + subsetWork s) (B := 44 * ((n.alphabet.length + 1) * n.tableSize ^ 2)) (by
    intro ev hev
    obtain ⟨S, rfl, hS⟩ := hinv ev (hE.perm.mem_iff.2 hev)
    have := subsetWork_le hn hS
    have : 1 ≤ (n.alphabet.length + 1) * n.tableSize ^ 2 := Nat.one_le_iff_ne_zero.2 (by positivity)
    omega)
  have hk := Dfa.sum_map_le (l := seen) (f := fun ev => 2 + keyCost ev.cur.length) (B := 7 * n.tableSize ^ 2) (by
    intro ev hev
    obtain ⟨S, rfl, hS⟩ := hinv ev hev
    have a2 : keyCost (n.ev S).cur.length ≤ 5 * n.tableSize ^ 2 := keyCost_le (IsAfter.length_le hn hS) h1
    omega)
  have hN : seen.length ≤ 2 ^ n.states.length := by
    have := nodup_subset_length_le (K := (List.range n.states.length).sublists) hE.keys_nodup (by
      intro k hk
      obtain ⟨ev, hev, rfl⟩ := List.mem_map.1 hk
      obtain ⟨S, rfl, hS⟩ := hinv ev hev
      exact hS.keys hn)
    simpa using this
  have hsort : sortCost seen.length ≤ seen.length * (2 * n.tableSize ^ 2) := by
    rw [sortCost]
    refine Nat.mul_le_mul_left _ ?_
    have : Nat.log2 seen.length ≤ n.states.length := by
      rcases Nat.eq_zero_or_pos seen.length with h0 | h0
      · rw [h0]; simp [Nat.log2]
      · have := (Nat.le_log2 (n := seen.length) (k := Nat.log2 seen.length) (by omega)).1 (le_refl _)
        exact (Nat.pow_le_pow_iff_right (by omega)).1 (this.trans hN)
    omega
  have a1 := evaluatorCost_le hn
  have a2 : (NfaEval.new n).acceptingCost ≤ 3 * n.tableSize := acceptingCost_le hn (setInv_iset hn) false
  have a3 : keyCost (NfaEval.new n).cur.length ≤ 5 * n.tableSize ^ 2 := keyCost_le (IsAfter.length_le hn (setInv_iset hn)) h1
  rw [toDfaCost]
  rw [he, hc]
  dsimp only
  rw [hlen]
  rw [← hE.perm.length_eq] at hw
  have e0 : (out.map (fun s => 1 + 0 + subsetWork s)).sum = (out.map (fun s => 1 + subsetWork s)).sum := rfl
  rw [e0]
  generalize hQ : n.tableSize ^ 2 = Q at *
  have key : 60 * ((seen.length + 1) * ((n.alphabet.length + 1) * Q)) = seen.length * (44 * ((n.alphabet.length + 1) * Q)) +
    seen.length * (7 * Q) + seen.length * (2 * Q) + (7 * (seen.length * Q) + 60 * Q) + (16 * (seen.length * (n.alphabet.length * Q)) + 60 * (n.alphabet.length * Q)) := by ring
  have h0 : seen.length ≤ seen.length * Q := Nat.le_mul_of_pos_right _ (by omega)
  have fin : 1 + n.evaluatorCost + (NfaEval.new n).acceptingCost + 2 * keyCost (NfaEval.new n).cur.length +
      (1 + (out.map (fun s => 1 + subsetWork s)).sum) +
      (seen.length + sortCost seen.length + (seen.map (fun ev => 2 + keyCost ev.cur.length)).sum) ≤
      60 * ((seen.length + 1) * ((n.alphabet.length + 1) * Q)) := by omega
  exact fin

/-- The exploration of `equivalent_to`, as in `equivalentTo_spec`. -/
theorem explore_pair {n o : Nfa} (hn : n.WF) (ho : o.WF) (h : SameElems n.alphabet o.alphabet) (ok : NfaEval × NfaEval → Bool) :
    explore pairKey (pairSucc n.alphabet) ok (2 ^ (n.states.length + o.states.length) + 1) [(NfaEval.new n, NfaEval.new o)]
        [(NfaEval.new n, NfaEval.new o)] [] = some none ∧ (∃ p, ok p = false) ∨
    ∃ out seen, explore pairKey (pairSucc n.alphabet) ok (2 ^ (n.states.length + o.states.length) + 1) [(NfaEval.new n, NfaEval.new o)]
        [(NfaEval.new n, NfaEval.new o)] [] = some (some (out, seen)) ∧
      Explored pairKey (pairSucc n.alphabet) ok (NfaEval.new n, NfaEval.new o) out seen := by
  rcases explore_spec (key := pairKey) (succ := pairSucc n.alphabet) (ok := ok)
      (fun p => ∃ S T, p = evp n o S T ∧ n.SetInv S ∧ o.SetInv T) (s0 := (NfaEval.new n, NfaEval.new o))
      ((List.range n.states.length).sublists ×ˢ (List.range o.states.length).sublists)
      (fuel := 2 ^ (n.states.length + o.states.length) + 1)
      ⟨n.iset, o.iset, rfl, ⟨[], isAfter_iset hn⟩, ⟨[], isAfter_iset ho⟩⟩
      (by
        rintro _ ⟨S, T, rfl, hS, hT⟩ t ht
        obtain ⟨e, i, j, h1, h2, rfl⟩ := (pairSucc_mem h).1 ht
        exact ⟨_, _, rfl, hS.nset hn h1, hT.nset ho h2⟩)
      (by
        rintro _ _ ⟨S, T, rfl, _⟩ ⟨S', T', rfl, _⟩ h
        simp only [pairKey, NfaEval.currentStatesIdx, Prod.mk.injEq] at h
        rw [h.1, h.2])
      (by
        rintro _ ⟨S, T, rfl, hS, hT⟩
        rw [pairKey, List.mem_product]
        exact ⟨hS.keys hn, hT.keys ho⟩)
      (by rw [List.length_product]; simp [Nat.pow_add]) with ⟨h1, s, _, h2⟩ | h
  · exact .inl ⟨h1, s, h2⟩
  · exact .inr h

/-- Stopping early does not make it longer. -/
theorem exploreCost_stop {σ κ : Type} [DecidableEq κ] {key : σ → κ} {succ : σ → List σ} {ok : σ → Bool} {test work : σ → Nat} :
    ∀ (k : Nat) (stack seen : List σ), exploreCost key succ ok test work k stack seen ≤ exploreCost key succ (fun _ => true) test work k stack seen
  | 0, _, _ => by simp [exploreCost]
  | _ + 1, [], _ => by simp [exploreCost]
  | k + 1, s :: stack, seen => by
    rw [exploreCost, exploreCost]
    split
    · have := exploreCost_stop (key := key) (succ := succ) (ok := ok) (test := test) (work := work) k (pushNew key (succ s) (stack, seen)).1 (pushNew key (succ s) (stack, seen)).2
      simpa using this
    · omega

theorem pair_states {n o : Nfa} (hn : n.WF) (ho : o.WF) (h : SameElems n.alphabet o.alphabet) {d e : Dfa} (hd : n.toDfa = some d)
    (he : o.toDfa = some e) {ok : NfaEval × NfaEval → Bool} {out seen : List (NfaEval × NfaEval)}
    (hE : Explored pairKey (pairSucc n.alphabet) ok (NfaEval.new n, NfaEval.new o) out seen) :
    (∀ p ∈ out, ∃ S T, p = evp n o S T ∧ n.SetInv S ∧ o.SetInv T) ∧ out.length ≤ d.states.length * e.states.length := by
  have hinit : (NfaEval.new n, NfaEval.new o) = evp n o n.iset o.iset := rfl
  have hr : ∀ p ∈ out, ∃ w S T, n.setE n.iset w = some S ∧ o.setE o.iset w = some T ∧ p = evp n o S T := by
    intro p hp
    rw [← hE.perm.mem_iff, hE.mem_iff, hinit, pair_reach h] at hp
    exact hp
  constructor
  · intro p hp
    obtain ⟨w, S, T, h1, h2, rfl⟩ := hr p hp
    exact ⟨S, T, rfl, ⟨w, by simpa using isAfter_setE hn (isAfter_iset hn) h1⟩, ⟨w, by simpa using isAfter_setE ho (isAfter_iset ho) h2⟩⟩
  · obtain ⟨ks, k1, k2⟩ := toDfa_eq hn
    obtain ⟨ls, l1, l2⟩ := toDfa_eq ho
    rw [k1, Option.some.injEq] at hd
    rw [l1, Option.some.injEq] at he
    have e1 : d.states.length = ks.length := by rw [← hd]; simp [subsetOf]
    have e2 : e.states.length = ls.length := by rw [← he]; simp [subsetOf]
    rw [e1, e2, ← List.length_product, ← hE.perm.length_eq, ← List.length_map (f := pairKey)]
    refine nodup_subset_length_le hE.keys_nodup ?_
    intro k hk
    obtain ⟨p, hp, rfl⟩ := List.mem_map.1 hk
    obtain ⟨w, S, T, h1, h2, rfl⟩ := hr p (hE.perm.mem_iff.1 hp)
    rw [pairKey, List.mem_product]
    exact ⟨(k2.mem_iff S).2 ⟨w, h1⟩, (l2.mem_iff T).2 ⟨w, h2⟩⟩

theorem pairStepWork_le {n o : Nfa} (hn : n.WF) (ho : o.WF) {S T : List Nat} (hS : n.SetInv S) (hT : o.SetInv T) :
    pairStepWork n.alphabet (evp n o S T) ≤ n.alphabet.length * (16 * (n.tableSize + o.tableSize) ^ 2) := by
  obtain ⟨h1, h2, h3, h4⟩ := small hn
  obtain ⟨g1, g2, g3, g4⟩ := small ho
  have hq : n.tableSize ^ 2 + o.tableSize ^ 2 ≤ (n.tableSize + o.tableSize) ^ 2 := by nlinarith
  rw [pairStepWork]
  refine Dfa.sum_map_le (fun e _ => ?_)
  have a1 : (n.ev S).cloneCost ≤ 2 * n.tableSize := cloneCost_le hn hS false
  have a2 : (o.ev T).cloneCost ≤ 2 * o.tableSize := cloneCost_le ho hT false
  have b1 : (n.ev S).stepCost e ≤ 8 * n.tableSize ^ 2 := stepCost_le hn hS false e
  have b2 : (o.ev T).stepCost e ≤ 8 * o.tableSize ^ 2 := stepCost_le ho hT false e
  have c1 : keyCost ((n.ev S).step e).1.cur.length ≤ 5 * n.tableSize ^ 2 := by
    obtain ⟨S', b', he, hS'⟩ := ev_step hn hS false e
    rw [he]; exact keyCost_le (IsAfter.length_le hn hS') h1
  have c2 : keyCost ((o.ev T).step e).1.cur.length ≤ 5 * o.tableSize ^ 2 := by
    obtain ⟨S', b', he, hS'⟩ := ev_step ho hT false e
    rw [he]; exact keyCost_le (IsAfter.length_le ho hS') g1
  dsimp only
  omega

theorem equivalentCost_le {n o : Nfa} (hn : n.WF) (ho : o.WF) {d e : Dfa} (hd : n.toDfa = some d) (he : o.toDfa = some e) :
    n.equivalentCost o ≤ 40 * ((d.states.length * e.states.length + 1) * ((n.alphabet.length + 1) * (n.tableSize + o.tableSize) ^ 2)) := by
  obtain ⟨h1, h2, h3, h4⟩ := small hn
  obtain ⟨g1, g2, g3, g4⟩ := small ho
  have hq : n.tableSize ^ 2 + o.tableSize ^ 2 ≤ (n.tableSize + o.tableSize) ^ 2 := by nlinarith
  have ha := Dfa.alphabetEqualCost_le n.alphabet o.alphabet
  rw [equivalentCost]
  generalize hQ : (n.tableSize + o.tableSize) ^ 2 = Q at *
  have key : 40 * ((d.states.length * e.states.length + 1) * ((n.alphabet.length + 1) * Q)) =
    (d.states.length * e.states.length) * (40 * ((n.alphabet.length + 1) * Q)) + 40 * (n.alphabet.length * Q) + 40 * Q := by ring
  have hk : n.alphabet.length ≤ n.alphabet.length * Q := Nat.le_mul_of_pos_right _ (by omega)
  split
  · omega
  · rename_i hs
    have hs' : SameElems n.alphabet o.alphabet := (alphabetEqual_iff hn.alphabet_nodup ho.alphabet_nodup).1 (by simpa using hs)
    have a1 := evaluatorCost_le hn
    have a2 := evaluatorCost_le ho
    have b1 : keyCost (NfaEval.new n).cur.length ≤ 5 * n.tableSize ^ 2 := keyCost_le (IsAfter.length_le hn (setInv_iset hn)) h1
    have b2 : keyCost (NfaEval.new o).cur.length ≤ 5 * o.tableSize ^ 2 := keyCost_le (IsAfter.length_le ho (setInv_iset ho)) g1
    have hstop := exploreCost_stop (key := pairKey) (succ := pairSucc n.alphabet) (ok := fun p => p.1.isAccepting == p.2.isAccepting)
      (test := fun p => p.1.acceptingCost + p.2.acceptingCost) (work := pairStepWork n.alphabet) (2 ^ (n.states.length + o.states.length) + 1)
      [(NfaEval.new n, NfaEval.new o)] [(NfaEval.new n, NfaEval.new o)]
    rcases explore_pair hn ho hs' (fun _ => true) with ⟨_, _, hf⟩ | ⟨out, seen, hx, hE⟩
    · cases hf
    have hc := exploreCost_eq (test := fun p : NfaEval × NfaEval => p.1.acceptingCost + p.2.acceptingCost) (work := pairStepWork n.alphabet) _ _ _ _ _ _ hx
    simp only [List.map_nil, List.sum_nil, Nat.add_zero] at hc
    rw [hc] at hstop
    obtain ⟨p1, p2⟩ := pair_states hn ho hs' hd he hE
    have hsum := Dfa.sum_map_le (l := out) (f := fun s => 1 + (s.1.acceptingCost + s.2.acceptingCost) + pairStepWork n.alphabet s)
      (B := 20 * ((n.alphabet.length + 1) * Q)) (by
        intro p hp
        obtain ⟨S, T, rfl, hS, hT⟩ := p1 p hp
        have c1 : (n.ev S).acceptingCost ≤ 3 * n.tableSize := acceptingCost_le hn hS false
        have c2 : (o.ev T).acceptingCost ≤ 3 * o.tableSize := acceptingCost_le ho hT false
        have c3 := pairStepWork_le hn ho hS hT
        rw [hQ] at c3
        have : 20 * ((n.alphabet.length + 1) * Q) = n.alphabet.length * (16 * Q) + 20 * Q + 4 * (n.alphabet.length * Q) := by ring
        dsimp only
        omega)
    have hle := Nat.mul_le_mul_right (20 * ((n.alphabet.length + 1) * Q)) p2
    have hle2 : d.states.length * e.states.length * (20 * ((n.alphabet.length + 1) * Q)) ≤ d.states.length * e.states.length * (40 * ((n.alphabet.length + 1) * Q)) :=
      Nat.mul_le_mul_left _ (by omega)
    dsimp only
    omega

end Nfa
end Dandy
