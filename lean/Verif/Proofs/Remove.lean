import Verif.Proofs.DfaCore
import Verif.Model.Nfa
/-! # `remove_states`: what is left, and where the states end up -/

namespace Dandy

/-- Indices below `n` that are not removed. -/
def keptOf (n : Nat) (rm : List Nat) : List Nat := (List.range n).filter (· ∉ rm)

theorem mem_keptOf {n : Nat} {rm : List Nat} {q : Nat} : q ∈ keptOf n rm ↔ q < n ∧ q ∉ rm := by
  simp [keptOf]

theorem keptOf_sorted (n : Nat) (rm : List Nat) : (keptOf n rm).Pairwise (· < ·) := sorted_filter_range _ _

theorem keptOf_nodup (n : Nat) (rm : List Nat) : (keptOf n rm).Nodup := sorted_nodup (keptOf_sorted n rm)

theorem keptOf_congr {n : Nat} {r1 r2 : List Nat} (h : ∀ x, x ∈ r1 ↔ x ∈ r2) : keptOf n r1 = keptOf n r2 :=
  sorted_ext (keptOf_sorted _ _) (keptOf_sorted _ _) (fun x => by simp [mem_keptOf, h])

theorem range_split {i m : Nat} (h : i < m) : ∃ rest, List.range m = List.range i ++ i :: rest ∧ ∀ x ∈ rest, i < x := by
  refine ⟨(List.range (m - i - 1)).map (fun k => i + 1 + k), ?_, ?_⟩
  · have hm : m = i + (1 + (m - i - 1)) := by omega
    conv_lhs => rw [hm]
    rw [List.range_add, List.range_add]
    simp [Function.comp_def, Nat.add_assoc]
  · intro x hx
    simp only [List.mem_map, List.mem_range] at hx
    obtain ⟨k, _, rfl⟩ := hx
    omega

theorem vecRemoveAll_range (is : List Nat) (m : Nat) (rest : List Nat) (hd : is.Pairwise (· > ·)) (hlt : ∀ i ∈ is, i < m) :
    vecRemoveAll is (List.range m ++ rest) = some (keptOf m is ++ rest) := by
  induction is generalizing m rest with
  | nil => simp [vecRemoveAll, keptOf]
  | cons i is ih =>
    rw [List.pairwise_cons] at hd
    have hi := hlt i (by simp)
    obtain ⟨r, hr, hgt⟩ := range_split hi
    have hk : keptOf m (i :: is) = keptOf i is ++ r := by
      unfold keptOf
      rw [hr, List.filter_append, List.filter_cons]
      simp only [List.mem_cons, true_or, not_true_eq_false, decide_false, Bool.false_eq_true, if_false]
      congr 1
      · apply List.filter_congr
        intro x hx
        have : x < i := by simpa using hx
        simp only [decide_eq_decide, not_or]
        exact ⟨fun h => h.2, fun h => ⟨by omega, h⟩⟩
      · rw [List.filter_eq_self]
        intro x hx
        have h1 := hgt x hx
        simp only [decide_eq_true_eq, not_or]
        exact ⟨by omega, fun hc => by have := hd.1 x hc; omega⟩
    simp only [vecRemoveAll, vecRemove]
    rw [if_pos (by simp; omega)]
    have he : (List.range m ++ rest).eraseIdx i = List.range i ++ (r ++ rest) := by
      rw [hr, List.append_assoc, List.eraseIdx_append_of_length_le (by simp)]
      simp
    rw [he, Option.bind_some, ih i (r ++ rest) hd.2 (fun j hj => hd.1 j hj), hk, List.append_assoc]

theorem vecRemoveAll_map {α β : Type} (f : α → β) (is : List Nat) (l : List α) :
    vecRemoveAll is (l.map f) = (vecRemoveAll is l).map (List.map f) := by
  induction is generalizing l with
  | nil => rfl
  | cons i is ih =>
    simp only [vecRemoveAll, vecRemove, List.length_map]
    split
    · simp only [Option.bind_some]
      rw [List.eraseIdx_map, ih]
    · rfl

theorem eq_map_getD {α : Type} (l : List α) (d : α) : l = (List.range l.length).map (fun i => l.getD i d) := by
  apply List.ext_getElem?
  intro i
  by_cases h : i < l.length
  · simp [h]
  · simp [h]

/-- The sorted list of removed indices, as used by `remove_states`. -/
theorem sortRm {ls : List Nat} (hn : ls.Nodup) :
    (ls.insertionSort (· ≤ ·)).Pairwise (· < ·) ∧ ∀ x, x ∈ ls.insertionSort (· ≤ ·) ↔ x ∈ ls := by
  have hp := List.perm_insertionSort (· ≤ ·) ls
  have hs := List.pairwise_insertionSort (· ≤ ·) ls
  refine ⟨?_, fun x => hp.mem_iff⟩
  have hn' : (ls.insertionSort (· ≤ ·)).Nodup := hp.nodup_iff.2 hn
  rw [List.Nodup] at hn'
  exact (hs.and hn').imp (fun h => lt_of_le_of_ne h.1 h.2)

theorem vecRemoveAll_spec {α : Type} {rm : List Nat} {l : List α} (d : α) (hs : rm.Pairwise (· < ·))
    (hlt : ∀ i ∈ rm, i < l.length) :
    vecRemoveAll rm.reverse l = some ((keptOf l.length rm).map (fun i => l.getD i d)) := by
  have h1 : rm.reverse.Pairwise (· > ·) := by rw [List.pairwise_reverse]; exact hs
  have h2 := vecRemoveAll_range rm.reverse l.length [] h1 (by simpa using hlt)
  rw [List.append_nil, List.append_nil] at h2
  conv_lhs => rw [eq_map_getD l d]
  rw [vecRemoveAll_map, h2, keptOf_congr (r2 := rm) (by simp)]
  simp

theorem idxOf_keptOf {n i : Nat} {rm : List Nat} (hs : rm.Pairwise (· < ·)) (hi : i < n) (hrm : i ∉ rm) :
    (keptOf n rm).idxOf i = i - rm.countP (· < i) := by
  obtain ⟨rest, hr, hgt⟩ := range_split hi
  have hk : keptOf n rm = keptOf i rm ++ i :: rest.filter (· ∉ rm) := by
    unfold keptOf
    rw [hr, List.filter_append, List.filter_cons]
    simp [hrm]
  have hni : i ∉ keptOf i rm := by simp [mem_keptOf]
  rw [hk, List.idxOf_append_of_notMem hni, List.idxOf_cons_self, Nat.add_zero]
  -- removed and kept below `i` add up to `i`
  have hsum : (keptOf i rm).length + ((List.range i).filter (· ∈ rm)).length = i := by
    have := List.length_eq_length_filter_add (l := List.range i) (fun x => decide (x ∉ rm))
    simp only [List.length_range] at this
    unfold keptOf
    have h2 : (List.range i).filter (fun x => decide (x ∈ rm)) = (List.range i).filter (fun x => !decide (x ∉ rm)) := by
      apply List.filter_congr; intro x _; simp
    rw [h2]; exact this.symm
  have hc : rm.countP (· < i) = ((List.range i).filter (· ∈ rm)).length := by
    rw [List.countP_eq_length_filter]
    apply congrArg
    apply sorted_ext (hs.sublist List.filter_sublist) (sorted_filter_range _ _)
    intro x; simp [and_comm]
  omega

theorem mapM_eq_some_map {α β : Type} {f : α → Option β} {g : α → β} {l : List α} (h : ∀ x ∈ l, f x = some (g x)) :
    l.mapM f = some (l.map g) := mapM_some h

/-- What `Dfa.removeStates` does when the removed states are in range, the initial state is kept and no kept state has a
transition to a removed one. -/
theorem Dfa.removeStates_eq {d : Dfa} {rm : List Nat} (hn : rm.Nodup) (hlt : ∀ i ∈ rm, i < d.states.length)
    (hinit : d.initialState < d.states.length) (hi : d.initialState ∉ rm)
    (htr : ∀ q < d.states.length, q ∉ rm → ∀ t ∈ (d.state q).transitions, t < d.states.length ∧ t ∉ rm) :
    d.removeStates rm = some
      { d with
        states := (keptOf d.states.length rm).map (fun q =>
          { d.state q with transitions := (d.state q).transitions.map (fun t => (keptOf d.states.length rm).idxOf t) })
        initialState := (keptOf d.states.length rm).idxOf d.initialState } := by
  obtain ⟨hs, hm⟩ := sortRm hn
  have hk : keptOf d.states.length (rm.insertionSort (· ≤ ·)) = keptOf d.states.length rm := keptOf_congr hm
  have hlt' : ∀ i ∈ rm.insertionSort (· ≤ ·), i < d.states.length := fun i h => hlt i ((hm i).1 h)
  have hb : binarySearch (rm.insertionSort (· ≤ ·)) d.initialState =
      .error ((rm.insertionSort (· ≤ ·)).countP (· < d.initialState)) := by
    unfold binarySearch; rw [if_neg (by rw [hm]; exact hi)]
  have h1 := vecRemoveAll_spec (l := d.states) default hs hlt'
  have h2 := vecRemoveAll_spec (l := List.range d.states.length) 0 hs (by simpa using hlt')
  have h2' : (keptOf (List.range d.states.length).length (rm.insertionSort (· ≤ ·))).map
      (fun i => (List.range d.states.length).getD i 0) = keptOf d.states.length rm := by
    rw [List.length_range, hk]
    conv_rhs => rw [← List.map_id (keptOf d.states.length rm)]
    apply List.map_congr_left
    intro x hx
    have := (mem_keptOf.1 hx).1
    simp [this]
  rw [h2'] at h2
  have hmain : ∀ s ∈ (keptOf d.states.length rm).map (fun i => d.states.getD i default),
      (do let tr ← s.transitions.mapM (fun t => (binarySearch (keptOf d.states.length rm) t).toOption)
          pure { s with transitions := tr } : Option DfaState) =
      some { s with transitions := s.transitions.map (fun t => (keptOf d.states.length rm).idxOf t) } := by
    intro s hsm
    obtain ⟨q, hq, rfl⟩ := List.mem_map.1 hsm
    rw [mapM_some (g := fun t => (keptOf d.states.length rm).idxOf t)]
    · rfl
    · intro t ht
      have hq' := mem_keptOf.1 hq
      have := mem_keptOf.2 (htr q hq'.1 hq'.2 t ht)
      simp [binarySearch, this, Except.toOption]
  unfold removeStates
  simp only [Option.bind_eq_bind] at hmain
  simp only [hb, h1, h2, hk, Option.bind_eq_bind, Option.bind_some]
  rw [mapM_some hmain]
  simp only [Option.bind_some, List.map_map, Option.pure_def, Option.some.injEq]
  congr 1
  rw [← hk, idxOf_keptOf hs hinit (by rw [hm]; exact hi)]

/-- The same for NFAs. -/
theorem Nfa.removeStates_eq {n : Nfa} {rm : List Nat} (hn : rm.Nodup) (hlt : ∀ i ∈ rm, i < n.states.length)
    (hinit : n.initialState < n.states.length) (hi : n.initialState ∉ rm)
    (htr : ∀ q < n.states.length, q ∉ rm → ∀ ts ∈ (n.state q).transitions, ∀ t ∈ ts, t < n.states.length ∧ t ∉ rm)
    (hep : ∀ q < n.states.length, q ∉ rm → ∀ t ∈ (n.state q).epsilonTransitions, t < n.states.length ∧ t ∉ rm) :
    n.removeStates rm = some
      { n with
        states := (keptOf n.states.length rm).map (fun q =>
          { n.state q with
            transitions := (n.state q).transitions.map (fun ts => ts.map (fun t => (keptOf n.states.length rm).idxOf t))
            epsilonTransitions := (n.state q).epsilonTransitions.map (fun t => (keptOf n.states.length rm).idxOf t) })
        initialState := (keptOf n.states.length rm).idxOf n.initialState } := by
  obtain ⟨hs, hm⟩ := sortRm hn
  have hk : keptOf n.states.length (rm.insertionSort (· ≤ ·)) = keptOf n.states.length rm := keptOf_congr hm
  have hlt' : ∀ i ∈ rm.insertionSort (· ≤ ·), i < n.states.length := fun i h => hlt i ((hm i).1 h)
  have hb : binarySearch (rm.insertionSort (· ≤ ·)) n.initialState =
      .error ((rm.insertionSort (· ≤ ·)).countP (· < n.initialState)) := by
    unfold binarySearch; rw [if_neg (by rw [hm]; exact hi)]
  have h1 := vecRemoveAll_spec (l := n.states) default hs hlt'
  have h2 := vecRemoveAll_spec (l := List.range n.states.length) 0 hs (by simpa using hlt')
  have h2' : (keptOf (List.range n.states.length).length (rm.insertionSort (· ≤ ·))).map
      (fun i => (List.range n.states.length).getD i 0) = keptOf n.states.length rm := by
    rw [List.length_range, hk]
    conv_rhs => rw [← List.map_id (keptOf n.states.length rm)]
    apply List.map_congr_left
    intro x hx
    have := (mem_keptOf.1 hx).1
    simp [this]
  rw [h2'] at h2
  have hfind : ∀ t, t < n.states.length ∧ t ∉ rm →
      ((binarySearch (keptOf n.states.length rm) t).toOption) = some ((keptOf n.states.length rm).idxOf t) := by
    intro t ht
    have := mem_keptOf.2 ht
    simp [binarySearch, this, Except.toOption]
  have hmain : ∀ s ∈ (keptOf n.states.length rm).map (fun i => n.states.getD i default),
      (do let tr ← s.transitions.mapM (fun ts => ts.mapM (fun t => (binarySearch (keptOf n.states.length rm) t).toOption))
          let eps ← s.epsilonTransitions.mapM (fun t => (binarySearch (keptOf n.states.length rm) t).toOption)
          pure { s with transitions := tr, epsilonTransitions := eps } : Option NfaState) =
      some { s with
        transitions := s.transitions.map (fun ts => ts.map (fun t => (keptOf n.states.length rm).idxOf t))
        epsilonTransitions := s.epsilonTransitions.map (fun t => (keptOf n.states.length rm).idxOf t) } := by
    intro s hsm
    obtain ⟨q, hq, rfl⟩ := List.mem_map.1 hsm
    have hq' := mem_keptOf.1 hq
    rw [mapM_some (g := fun ts => ts.map (fun t => (keptOf n.states.length rm).idxOf t))]
    · rw [mapM_some (g := fun t => (keptOf n.states.length rm).idxOf t)]
      · rfl
      · intro t ht
        exact hfind t (hep q hq'.1 hq'.2 t ht)
    · intro ts hts
      apply mapM_some
      intro t ht
      exact hfind t (htr q hq'.1 hq'.2 ts hts t ht)
  unfold removeStates
  simp only [Option.bind_eq_bind] at hmain
  simp only [hb, h1, h2, hk, Option.bind_eq_bind, Option.bind_some]
  rw [mapM_some hmain]
  simp only [Option.bind_some, List.map_map, Option.pure_def, Option.some.injEq]
  congr 1
  rw [← hk, idxOf_keptOf hs hinit (by rw [hm]; exact hi)]

end Dandy
