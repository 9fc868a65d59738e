import Mathlib.Data.Set.Card
import Verif.Spec.Count
import Verif.Spec.Words
/-! # Counting the words of a length -/

namespace Dandy

/-- The words of a length that are accepted from a state. -/
def Dfa.wordsFrom (d : Dfa) : Nat → Nat → List Word
  | 0, q =>
    match d.states[q]? with
    | some s => if s.accepting then [[]] else []
    | none => []
  | m + 1, q =>
    match d.states[q]? with
    | some s => (d.alphabet.zip s.transitions).flatMap (fun p => (d.wordsFrom m p.2).map (p.1 :: ·))
    | none => []

theorem Dfa.wordsFrom_length {d : Dfa} (hd : d.WF) : ∀ (m q : Nat), (d.wordsFrom m q).length = d.countFrom m q
  | 0, q => by
    unfold wordsFrom countFrom
    cases d.states[q]? with
    | none => rfl
    | some s => dsimp only; split <;> rfl
  | m + 1, q => by
    unfold wordsFrom countFrom
    cases h : d.states[q]? with
    | none => rfl
    | some s =>
      dsimp only
      have hr := hd.row_len s (List.mem_of_getElem? h)
      have e : s.transitions = (d.alphabet.zip s.transitions).map (·.2) := (List.map_snd_zip (by omega)).symm
      rw [List.length_flatMap]
      conv_rhs => rw [e, List.map_map]
      congr 1
      apply List.map_congr_left
      intro p _
      simp [wordsFrom_length hd m p.2]

theorem Dfa.mem_wordsFrom {d : Dfa} : ∀ (m q : Nat) (w : Word),
    w ∈ d.wordsFrom m q ↔ w.length = m ∧ ∃ r, d.Run q w r ∧ d.Acc r
  | 0, q, w => by
    unfold wordsFrom
    constructor
    · intro h
      cases hq : d.states[q]? with
      | none => rw [hq] at h; cases h
      | some s =>
        rw [hq] at h
        dsimp only at h
        split at h
        · rename_i ha
          rw [List.mem_singleton] at h
          subst h
          exact ⟨rfl, q, .nil q, s, hq, ha⟩
        · cases h
    · rintro ⟨h1, r, h2, s, h3, h4⟩
      rw [List.length_eq_zero_iff] at h1
      subst h1
      cases h2
      rw [h3]
      simp [h4]
  | m + 1, q, w => by
    unfold wordsFrom
    constructor
    · intro h
      cases hq : d.states[q]? with
      | none => rw [hq] at h; cases h
      | some s =>
        rw [hq] at h
        dsimp only at h
        rw [List.mem_flatMap] at h
        obtain ⟨⟨e, t⟩, h1, h2⟩ := h
        rw [List.mem_map] at h2
        obtain ⟨v, h2, rfl⟩ := h2
        obtain ⟨h3, r, h4, h5⟩ := (mem_wordsFrom m t v).1 h2
        obtain ⟨i, hi⟩ := List.mem_iff_getElem?.1 h1
        rw [List.getElem?_zip_eq_some] at hi
        exact ⟨by simp [h3], r, .cons hq hi.1 hi.2 h4, h5⟩
    · rintro ⟨h1, r, h2, h3⟩
      cases h2 with
      | nil => simp at h1
      | @cons _ i t _ e v s hq he ht hr =>
        rw [hq]
        dsimp only
        rw [List.mem_flatMap]
        refine ⟨(e, t), ?_, ?_⟩
        · exact List.mem_iff_getElem?.2 ⟨i, List.getElem?_zip_eq_some.2 ⟨he, ht⟩⟩
        · rw [List.mem_map]
          exact ⟨v, (mem_wordsFrom m t v).2 ⟨by simpa using h1, r, hr, h3⟩, rfl⟩

theorem Dfa.wordsFrom_nodup {d : Dfa} (hd : d.WF) : ∀ (m q : Nat), (d.wordsFrom m q).Nodup
  | 0, q => by
    unfold wordsFrom
    cases d.states[q]? with
    | none => exact List.nodup_nil
    | some s => dsimp only; split <;> simp
  | m + 1, q => by
    unfold wordsFrom
    cases h : d.states[q]? with
    | none => exact List.nodup_nil
    | some s =>
      dsimp only
      rw [List.nodup_flatMap]
      refine ⟨fun p _ => (wordsFrom_nodup hd m p.2).map (fun a b hab => (List.cons.inj hab).2), ?_⟩
      have hz : ((d.alphabet.zip s.transitions).map (·.1)).Nodup := by
        rw [List.map_fst_zip (by have := hd.row_len s (List.mem_of_getElem? h); omega)]
        exact hd.alphabet_nodup
      have hz := List.pairwise_map.1 hz
      refine hz.imp ?_
      intro a b hab
      rw [Function.onFun, List.disjoint_left]
      intro w h1 h2
      rw [List.mem_map] at h1 h2
      obtain ⟨u, _, rfl⟩ := h1
      obtain ⟨v, _, h3⟩ := h2
      exact hab (List.cons.inj h3).1.symm

theorem Dfa.count_spec {d : Dfa} (hd : d.WF) (m : Nat) :
    {w | d.Lang w ∧ w.length = m}.Finite ∧ {w | d.Lang w ∧ w.length = m}.ncard = d.count m := by
  classical
  have e : {w | d.Lang w ∧ w.length = m} = ((d.wordsFrom m d.initialState).toFinset : Set Word) := by
    ext w
    rw [Finset.mem_coe, List.mem_toFinset, mem_wordsFrom]
    exact and_comm
  rw [e]
  refine ⟨Finset.finite_toSet _, ?_⟩
  rw [Set.ncard_coe_finset, List.toFinset_card_of_nodup (wordsFrom_nodup hd _ _), wordsFrom_length hd]
  rfl

/-- Words accepted and words not accepted are together all words. -/
theorem Dfa.countFrom_flip {d o : Dfa} (hd : d.WF)
    (hs : ∀ (q : Nat) (s : DfaState), d.states[q]? = some s → ∃ s', o.states[q]? = some s' ∧ s'.accepting = !s.accepting ∧ s'.transitions = s.transitions) :
    ∀ (m q : Nat), q < d.states.length → o.countFrom m q + d.countFrom m q = d.alphabet.length ^ m
  | 0, q, hq => by
    obtain ⟨s', h1, h2, _⟩ := hs q _ (List.getElem?_eq_getElem hq)
    unfold countFrom
    rw [h1, List.getElem?_eq_getElem hq]
    dsimp only
    rw [h2]
    cases (d.states[q]).accepting <;> simp
  | m + 1, q, hq => by
    obtain ⟨s', h1, _, h2⟩ := hs q _ (List.getElem?_eq_getElem hq)
    unfold countFrom
    rw [h1, List.getElem?_eq_getElem hq]
    dsimp only
    rw [h2]
    have hm : d.states[q] ∈ d.states := List.getElem_mem hq
    have ht := hd.targets _ hm
    have key : ∀ l : List Nat, (∀ t ∈ l, t < d.states.length) →
        (l.map (o.countFrom m)).sum + (l.map (d.countFrom m)).sum = l.length * d.alphabet.length ^ m := by
      intro l
      induction l with
      | nil => intro _; simp
      | cons t l ih =>
        intro h
        have h3 := ih (fun t ht => h t (List.mem_cons_of_mem _ ht))
        have h4 := countFrom_flip hd hs m t (h t List.mem_cons_self)
        simp only [List.map_cons, List.sum_cons, List.length_cons, Nat.succ_mul]
        omega
    rw [key _ ht, hd.row_len _ hm, pow_succ, mul_comm]

/-! ## The place of a word -/

/-- The words with as many elements as the given one that are accepted from a state and come before it. -/
def Dfa.lowerFrom (d : Dfa) : Nat → Word → List Word
  | _, [] => []
  | q, e :: w =>
    match d.states[q]? with
    | some s => ((d.alphabet.zip s.transitions).take (d.alphabet.idxOf e)).flatMap (fun p => (d.wordsFrom w.length p.2).map (p.1 :: ·)) ++
        (d.lowerFrom (s.transitions.getD (d.alphabet.idxOf e) 0) w).map (e :: ·)
    | none => []

theorem Dfa.lowerFrom_length {d : Dfa} (hd : d.WF) : ∀ (q : Nat) (w : Word), (d.lowerFrom q w).length = d.rankFrom q w
  | _, [] => rfl
  | q, e :: w => by
    unfold lowerFrom rankFrom
    cases h : d.states[q]? with
    | none => rfl
    | some s =>
      dsimp only
      have hr := hd.row_len s (List.mem_of_getElem? h)
      have e1 : s.transitions.take (d.alphabet.idxOf e) = ((d.alphabet.zip s.transitions).take (d.alphabet.idxOf e)).map (·.2) := by
        rw [List.map_take, List.map_snd_zip (by omega)]
      rw [List.length_append, List.length_flatMap, List.length_map, lowerFrom_length hd _ w]
      conv_rhs => rw [e1, List.map_map]
      congr 2
      apply List.map_congr_left
      intro p _
      simp [wordsFrom_length hd]

/-- Words of the same length are compared at the first element where they differ. -/
def LexLess (al : List Str) (v w : Word) : Prop := ∃ (p u' v' : Word) (a b : Str), v = p ++ a :: u' ∧ w = p ++ b :: v' ∧ Before al a b

theorem lexLess_cons {al : List Str} {c e : Str} {v w : Word} : LexLess al (c :: v) (e :: w) ↔ Before al c e ∨ c = e ∧ LexLess al v w := by
  constructor
  · rintro ⟨p, u', v', a, b, h1, h2, h3⟩
    cases p with
    | nil => cases h1; cases h2; exact Or.inl h3
    | cons x p => cases h1; cases h2; exact Or.inr ⟨rfl, p, u', v', a, b, rfl, rfl, h3⟩
  · rintro (h | ⟨rfl, p, u', v', a, b, rfl, rfl, h3⟩)
    · exact ⟨[], v, w, c, e, rfl, rfl, h⟩
    · exact ⟨c :: p, u', v', a, b, rfl, rfl, h3⟩

theorem Dfa.mem_lowerFrom {d : Dfa} (hd : d.WF) : ∀ (w : Word) (q : Nat), (∀ e ∈ w, e ∈ d.alphabet) → ∀ v : Word,
    v ∈ d.lowerFrom q w ↔ v.length = w.length ∧ (∃ r, d.Run q v r ∧ d.Acc r) ∧ LexLess d.alphabet v w
  | [], q, _, v => by
    unfold lowerFrom
    constructor
    · intro h; cases h
    · rintro ⟨_, _, p, u', v', a, b, _, h, _⟩
      cases p <;> cases h
  | e :: w, q, hw, v => by
    have hi : d.alphabet.idxOf e < d.alphabet.length := List.idxOf_lt_length_iff.2 (hw e List.mem_cons_self)
    have he : d.alphabet[d.alphabet.idxOf e]? = some e := by rw [List.getElem?_eq_getElem hi, List.getElem_idxOf]
    have hidx : ∀ (i : Nat) (c : Str), d.alphabet[i]? = some c → (Before d.alphabet c e ↔ i < d.alphabet.idxOf e) := by
      intro i c hc
      constructor
      · rintro ⟨a, b, h1, h2, h3⟩
        have e1 := (List.getElem?_inj (List.getElem?_eq_some_iff.1 h1).1 hd.alphabet_nodup).1 (h1.trans hc.symm)
        have e2 := (List.getElem?_inj (List.getElem?_eq_some_iff.1 h2).1 hd.alphabet_nodup).1 (h2.trans he.symm)
        omega
      · intro h
        exact ⟨i, _, hc, he, h⟩
    unfold lowerFrom
    cases hq : d.states[q]? with
    | none =>
      dsimp only
      constructor
      · intro h; cases h
      · rintro ⟨h1, ⟨r, h2, _⟩, _⟩
        cases h2 with
        | nil => simp at h1
        | cons h3 => rw [hq] at h3; cases h3
    | some s =>
      dsimp only
      have hr := hd.row_len s (List.mem_of_getElem? hq)
      have ht : s.transitions[d.alphabet.idxOf e]? = some (s.transitions.getD (d.alphabet.idxOf e) 0) := by
        rw [List.getD_eq_getElem?_getD, List.getElem?_eq_getElem (by omega)]
        rfl
      rw [List.mem_append, List.mem_flatMap, List.mem_map]
      constructor
      · rintro (⟨⟨c, t⟩, h1, h2⟩ | ⟨v, h1, rfl⟩)
        · rw [List.mem_map] at h2
          obtain ⟨v, h2, rfl⟩ := h2
          obtain ⟨h3, r, h4, h5⟩ := (mem_wordsFrom _ t v).1 h2
          obtain ⟨i, h6⟩ := List.mem_iff_getElem?.1 h1
          rw [List.getElem?_take] at h6
          split at h6
          · rename_i hlt
            rw [List.getElem?_zip_eq_some] at h6
            exact ⟨by simp [h3], ⟨r, .cons hq h6.1 h6.2 h4, h5⟩, lexLess_cons.2 (Or.inl ((hidx i c h6.1).2 hlt))⟩
          · cases h6
        · obtain ⟨h2, ⟨r, h3, h4⟩, h5⟩ := (mem_lowerFrom hd w _ (fun x hx => hw x (List.mem_cons_of_mem _ hx)) v).1 h1
          exact ⟨by simp [h2], ⟨r, .cons hq he ht h3, h4⟩, lexLess_cons.2 (Or.inr ⟨rfl, h5⟩)⟩
      · rintro ⟨h1, ⟨r, h2, h3⟩, h4⟩
        cases h2 with
        | nil => simp at h1
        | @cons _ i t _ c v s' hq' hc htr hrun =>
          rw [hq] at hq'
          cases hq'
          rcases lexLess_cons.1 h4 with h5 | ⟨rfl, h5⟩
          · refine Or.inl ⟨(c, t), ?_, ?_⟩
            · refine List.mem_iff_getElem?.2 ⟨i, ?_⟩
              rw [List.getElem?_take, if_pos ((hidx i c hc).1 h5)]
              exact List.getElem?_zip_eq_some.2 ⟨hc, htr⟩
            · rw [List.mem_map]
              exact ⟨v, (mem_wordsFrom _ t v).2 ⟨by simpa using h1, r, hrun, h3⟩, rfl⟩
          · refine Or.inr ⟨v, ?_, rfl⟩
            have e1 := (List.getElem?_inj (List.getElem?_eq_some_iff.1 hc).1 hd.alphabet_nodup).1 (hc.trans he.symm)
            rw [e1, ht] at htr
            cases htr
            exact (mem_lowerFrom hd w _ (fun x hx => hw x (List.mem_cons_of_mem _ hx)) v).2 ⟨by simpa using h1, ⟨r, hrun, h3⟩, h5⟩

theorem Dfa.lowerFrom_nodup {d : Dfa} (hd : d.WF) : ∀ (w : Word) (q : Nat), (∀ e ∈ w, e ∈ d.alphabet) → (d.lowerFrom q w).Nodup
  | [], q, _ => by unfold lowerFrom; exact List.nodup_nil
  | e :: w, q, hw => by
    have hi : d.alphabet.idxOf e < d.alphabet.length := List.idxOf_lt_length_iff.2 (hw e List.mem_cons_self)
    unfold lowerFrom
    cases h : d.states[q]? with
    | none => exact List.nodup_nil
    | some s =>
      dsimp only
      have hr := hd.row_len s (List.mem_of_getElem? h)
      rw [List.nodup_append]
      refine ⟨?_, (lowerFrom_nodup hd w _ fun x hx => hw x (List.mem_cons_of_mem _ hx)).map (fun a b hab => (List.cons.inj hab).2), ?_⟩
      · have h1 := wordsFrom_nodup hd (w.length + 1) q
        unfold wordsFrom at h1
        rw [h] at h1
        dsimp only at h1
        refine h1.sublist ?_
        exact (List.take_sublist _ _).flatMap _
      · intro a ha b hb hab
        subst hab
        rw [List.mem_flatMap] at ha
        rw [List.mem_map] at hb
        obtain ⟨⟨c, t⟩, h1, h2⟩ := ha
        obtain ⟨v, _, rfl⟩ := hb
        rw [List.mem_map] at h2
        obtain ⟨v', _, h3⟩ := h2
        obtain ⟨i, h6⟩ := List.mem_iff_getElem?.1 h1
        rw [List.getElem?_take] at h6
        split at h6
        · rename_i hlt
          rw [List.getElem?_zip_eq_some] at h6
          have h7 : c = e := (List.cons.inj h3).1
          have h8 := h6.1
          rw [h7] at h8
          have he : d.alphabet[d.alphabet.idxOf e]? = some e := by rw [List.getElem?_eq_getElem hi, List.getElem_idxOf]
          have e1 := (List.getElem?_inj (List.getElem?_eq_some_iff.1 h8).1 hd.alphabet_nodup).1 (h8.trans he.symm)
          omega
        · cases h6

theorem Dfa.rank_spec {d : Dfa} (hd : d.WF) (w : Word) (hw : ∀ e ∈ w, e ∈ d.alphabet) :
    {v | d.Lang v ∧ ShortLex d.alphabet v w}.ncard = d.rank w := by
  classical
  let l := (List.range w.length).flatMap (fun i => d.wordsFrom i d.initialState) ++ d.lowerFrom d.initialState w
  have hmem : ∀ v, v ∈ l ↔ d.Lang v ∧ ShortLex d.alphabet v w := by
    intro v
    rw [List.mem_append, List.mem_flatMap, mem_lowerFrom hd w _ hw]
    constructor
    · rintro (⟨i, h1, h2⟩ | ⟨h1, h2, h3⟩)
      · obtain ⟨h3, h4⟩ := (mem_wordsFrom i _ v).1 h2
        exact ⟨h4, Or.inl (by rw [h3]; exact List.mem_range.1 h1)⟩
      · exact ⟨h2, Or.inr ⟨h1, h3⟩⟩
    · rintro ⟨h1, h2 | ⟨h2, h3⟩⟩
      · exact Or.inl ⟨v.length, List.mem_range.2 h2, (mem_wordsFrom _ _ v).2 ⟨rfl, h1⟩⟩
      · exact Or.inr ⟨h2, h1, h3⟩
  have hnd : l.Nodup := by
    refine List.nodup_append.2 ⟨?_, lowerFrom_nodup hd w _ hw, ?_⟩
    · rw [List.nodup_flatMap]
      refine ⟨fun i _ => wordsFrom_nodup hd i _, List.nodup_range.imp ?_⟩
      intro a b hab
      rw [Function.onFun, List.disjoint_left]
      intro v h1 h2
      exact hab (((mem_wordsFrom a _ v).1 h1).1.symm.trans ((mem_wordsFrom b _ v).1 h2).1)
    · intro a ha b hb hab
      subst hab
      rw [List.mem_flatMap] at ha
      obtain ⟨i, h1, h2⟩ := ha
      have h3 := ((mem_wordsFrom i _ a).1 h2).1
      have h4 := ((mem_lowerFrom hd w _ hw a).1 hb).1
      have := List.mem_range.1 h1
      omega
  have e : {v | d.Lang v ∧ ShortLex d.alphabet v w} = (l.toFinset : Set Word) := by
    ext v
    rw [Finset.mem_coe, List.mem_toFinset, hmem]
    rfl
  rw [e, Set.ncard_coe_finset, List.toFinset_card_of_nodup hnd, List.length_append, List.length_flatMap, lowerFrom_length hd]
  unfold rank
  congr 2
  apply List.map_congr_left
  intro i _
  exact wordsFrom_length hd i _

end Dandy
