import Verif.Props.Apart
import Verif.Props.Finite
import Verif.Proofs.Count
/-! # How many words there are of each length, and which place a word has -/

namespace Dandy
open Samples Cli

/-- **C129** The number of words of a length that a DFA accepts can be read off its table: it is the sum along the rows. -/
theorem C129_table (d : Dfa) (hd : d.WF) (m : Nat) :
    {w | d.accepts w = true ∧ w.length = m}.Finite ∧ {w | d.accepts w = true ∧ w.length = m}.ncard = d.count m := by
  simp only [C01_dfa_accepts_iff d hd]
  exact Dfa.count_spec hd m

/-- Words with an odd number of `a` over two elements: half of all words. -/
example : oddA.WF ∧ (List.range 6).map oddA.count = [0, 1, 2, 4, 8, 16] ∧ (List.range 5).map overC.count ≠ (List.range 5).map oddA.count :=
  ⟨oddA_wf, by decide, by decide⟩

/-- The items of an enumeration with words of a length. -/
private theorem items_length {ws : List Word} {k m : Nat} :
    ((ws.map some ++ List.replicate k none : List (Option Word)).filter (fun r => r.any (fun w => w.length == m))).length =
      (ws.filter (fun w => w.length == m)).length := by
  rw [List.filter_append, List.length_append]
  have : (List.replicate k (none : Option Word)).filter (fun r => r.any (fun w => w.length == m)) = [] := by
    rw [List.filter_eq_nil_iff]
    intro x hx
    rw [List.eq_of_mem_replicate hx]
    simp
  rw [this, List.length_nil, Nat.add_zero, List.filter_map, List.length_map]
  rfl

private theorem firstWords_nodup {al : List Str} (hal : al.Nodup) {L : Word → Prop} {k : Nat} {ws : List Word} (h : FirstWords al L k ws) :
    ws.Nodup := by
  refine h.sorted.imp ?_
  rintro a b hab rfl
  exact ShortLex.asymm hal hab hab

/-- **C129** The enumeration of the words of an NFA yields, among the items before it gets to longer words or ends, exactly as many
words of a length as the NFA accepts. -/
theorem C129_enumeration (n : Nfa) (hn : n.WF) (he : ∀ s ∈ n.states, s.epsilonTransitions = []) (m k : Nat) (rs : List (Option Word))
    (h : n.wordComponents k = some rs) (hpast : none ∈ rs ∨ ∃ v, some v ∈ rs ∧ m < v.length) :
    (rs.filter (fun r => r.any (fun w => w.length == m))).length = {w | n.accepts w = true ∧ w.length = m}.ncard := by
  classical
  obtain ⟨ws, j, h1, h2, h3⟩ := wordComponents_first hn he k
  rw [h1] at h
  cases h
  have hnd := firstWords_nodup hn.alphabet_nodup h3
  rw [items_length, ← List.toFinset_card_of_nodup (hnd.filter _), ← Set.ncard_coe_finset]
  congr 1
  ext w
  rw [Finset.mem_coe, List.mem_toFinset, List.mem_filter, Set.mem_ofPred_eq, C02_nfa_accepts_iff n hn, beq_iff_eq]
  constructor
  · rintro ⟨h4, h5⟩
    exact ⟨h3.sound w h4, h5⟩
  · rintro ⟨h4, h5⟩
    refine ⟨?_, h5⟩
    rcases h3.complete w h4 with h6 | ⟨h6, h7⟩
    · exact h6
    · exfalso
      rcases hpast with hp | ⟨v, hv, hlt⟩
      · rw [List.mem_append] at hp
        rcases hp with hp | hp
        · simp at hp
        · have := List.length_pos_of_mem hp
          rw [List.length_replicate] at this
          omega
      · have : v ∈ ws := by
          rw [List.mem_append] at hv
          rcases hv with hv | hv
          · simpa using hv
          · exact absurd (List.eq_of_mem_replicate hv) (by simp)
        rcases h7 v this with h8 | ⟨h8, _⟩ <;> omega

/-- **C129** So for a DFA it yields as many words of a length as its table says. -/
theorem C129_dfa_enumeration (d : Dfa) (hd : d.WF) (m k : Nat) (rs : List (Option Word)) (h : d.toNfa.wordComponents k = some rs)
    (hpast : none ∈ rs ∨ ∃ v, some v ∈ rs ∧ m < v.length) :
    (rs.filter (fun r => r.any (fun w => w.length == m))).length = d.count m := by
  have hN := (C18_to_nfa_lang d hd []).1
  have he : ∀ s ∈ d.toNfa.states, s.epsilonTransitions = [] := by
    have := (C18_to_nfa_structure d).1
    simpa [Nfa.hasEpsilonMoves] using this
  rw [C129_enumeration d.toNfa hN he m k rs h hpast, ← (C129_table d hd m).2]
  congr 1
  ext w
  rw [Set.mem_ofPred_eq, Set.mem_ofPred_eq, (C18_to_nfa_lang d hd w).2.2]

example : ∃ rs, oddA.toNfa.wordComponents 9 = some rs ∧ (∃ v, some v ∈ rs ∧ 3 < v.length) ∧
    (rs.filter (fun r => r.any (fun w => w.length == 3))).length = 4 :=
  ⟨_, rfl, ⟨[s 'a', s 'a', s 'a', s 'b'], by decide, by decide⟩, by decide⟩

/-- **C129** The place of a word in the enumeration is the number of accepted words that are smaller: with fewer elements, or with as many and
before it in the order of the alphabet. -/
theorem C129_place (n : Nfa) (hn : n.WF) (he : ∀ s ∈ n.states, s.epsilonTransitions = []) (k : Nat) (rs : List (Option Word))
    (h : n.wordComponents k = some rs) (i : Nat) (hi : i < k) (w : Word) :
    rs[i]? = some (some w) ↔ n.accepts w = true ∧ {v | n.accepts v = true ∧ ShortLex n.alphabet v w}.ncard = i := by
  classical
  obtain ⟨ws, j, h1, h2, h3⟩ := wordComponents_first hn he k
  rw [h1] at h
  cases h
  have hnd := firstWords_nodup hn.alphabet_nodup h3
  have hget : ∀ (i : Nat) (w : Word), (ws.map some ++ List.replicate j none)[i]? = some (some w) ↔ ws[i]? = some w := by
    intro i w
    by_cases hlt : i < ws.length
    · rw [List.getElem?_append_left (by simpa using hlt), List.getElem?_map, List.getElem?_eq_getElem hlt]
      simp
    · rw [List.getElem?_append_right (by simpa using hlt), List.getElem?_eq_none (by omega : ws.length ≤ i)]
      rw [List.getElem?_replicate]
      split <;> simp
  have hbelow : ∀ (i : Nat) (w : Word), ws[i]? = some w → {v | n.accepts v = true ∧ ShortLex n.alphabet v w}.ncard = i := by
    intro i w hw
    obtain ⟨hlt, rfl⟩ := List.getElem?_eq_some_iff.1 hw
    have e : {v | n.accepts v = true ∧ ShortLex n.alphabet v ws[i]} = ((ws.take i).toFinset : Set Word) := by
      ext v
      rw [Finset.mem_coe, List.mem_toFinset, Set.mem_ofPred_eq, C02_nfa_accepts_iff n hn]
      have hs := List.pairwise_iff_getElem.1 h3.sorted
      constructor
      · rintro ⟨h4, h5⟩
        have hv : v ∈ ws := by
          rcases h3.complete v h4 with h6 | ⟨_, h7⟩
          · exact h6
          · exact absurd h5 (ShortLex.asymm hn.alphabet_nodup (h7 _ (List.getElem_mem hlt)))
        obtain ⟨a, ha, rfl⟩ := List.getElem_of_mem hv
        rw [List.mem_take_iff_getElem]
        refine ⟨a, ?_, rfl⟩
        rcases Nat.lt_trichotomy a i with h6 | rfl | h6
        · omega
        · exact absurd h5 (ShortLex.asymm hn.alphabet_nodup h5)
        · exact absurd (hs i a hlt ha h6) (ShortLex.asymm hn.alphabet_nodup h5)
      · intro h4
        rw [List.mem_take_iff_getElem] at h4
        obtain ⟨a, ha, rfl⟩ := h4
        exact ⟨h3.sound _ (List.getElem_mem _), hs a i (by omega) hlt (by omega)⟩
    rw [e, Set.ncard_coe_finset, List.toFinset_card_of_nodup (hnd.sublist (List.take_sublist _ _)), List.length_take]
    omega
  rw [hget]
  constructor
  · intro hw
    exact ⟨(C02_nfa_accepts_iff n hn w).2 (h3.sound w (List.mem_of_getElem? hw)), hbelow i w hw⟩
  · rintro ⟨h4, h5⟩
    have h4 := (C02_nfa_accepts_iff n hn w).1 h4
    rcases h3.complete w h4 with h6 | ⟨h6, h7⟩
    · obtain ⟨a, ha⟩ := List.mem_iff_getElem?.1 h6
      rw [← h5, hbelow a w ha]
      exact ha
    · exfalso
      -- all the words of the list are below
      have hsub : (ws.toFinset : Set Word) ⊆ {v | n.accepts v = true ∧ ShortLex n.alphabet v w} := by
        intro v hv
        rw [Finset.mem_coe, List.mem_toFinset] at hv
        exact ⟨(C02_nfa_accepts_iff n hn v).2 (h3.sound v hv), h7 v hv⟩
      have hfin : {v | n.accepts v = true ∧ ShortLex n.alphabet v w}.Finite := by
        obtain ⟨k', rs', g1, g2⟩ := C31_words_complete n hn he w h4
        obtain ⟨ws', j', g3, _, g4⟩ := wordComponents_first hn he k'
        rw [g3] at g1
        cases g1
        have hw : w ∈ ws' := by
          rw [List.mem_append] at g2
          rcases g2 with g2 | g2
          · simpa using g2
          · exact absurd (List.eq_of_mem_replicate g2) (by simp)
        refine (Finset.finite_toSet ws'.toFinset).subset fun v hv => ?_
        rw [Finset.mem_coe, List.mem_toFinset]
        rcases g4.complete v ((C02_nfa_accepts_iff n hn v).1 hv.1) with g5 | ⟨_, g5⟩
        · exact g5
        · exact absurd hv.2 (ShortLex.asymm hn.alphabet_nodup (g5 w hw))
      have := (Set.ncard_le_ncard hsub hfin).trans_eq h5
      rw [Set.ncard_coe_finset, List.toFinset_card_of_nodup hnd] at this
      omega

example : ∃ rs, oddA.toNfa.wordComponents 5 = some rs ∧ rs[3]? = some (some [s 'a', s 'a', s 'a']) :=
  ⟨_, rfl, by decide⟩

/-- **C129** For a DFA the place of a word can be read off the table, without enumerating anything: the numbers of shorter words, and along the
run of the word the numbers of words that branch off to elements before its own. -/
theorem C129_dfa_place (d : Dfa) (hd : d.WF) (k : Nat) (rs : List (Option Word)) (h : d.toNfa.wordComponents k = some rs) (i : Nat) (hi : i < k)
    (w : Word) : rs[i]? = some (some w) ↔ d.accepts w = true ∧ d.rank w = i := by
  have hN := (C18_to_nfa_lang d hd []).1
  have he : ∀ s ∈ d.toNfa.states, s.epsilonTransitions = [] := by
    have := (C18_to_nfa_structure d).1
    simpa [Nfa.hasEpsilonMoves] using this
  have ha : ∀ v, d.toNfa.accepts v = d.accepts v := fun v => (C18_to_nfa_lang d hd v).2.2
  rw [C129_place d.toNfa hN he k rs h i hi w]
  simp only [ha]
  refine and_congr_right fun hw => ?_
  rw [← Dfa.rank_spec hd w (Dfa.over_of_lang hd ((C01_dfa_accepts_iff d hd w).1 hw))]
  simp only [C01_dfa_accepts_iff d hd]
  exact Iff.rfl

/-- The place of a word far down in the enumeration: there are 2^20 - 1 shorter ones, and half of the 2^20 others with 21 elements come before it
(it begins with the second element). -/
example : oddA.rank [s 'a', s 'a', s 'a'] = 3 ∧ oddA.accepts (s 'b' :: List.replicate 19 (s 'a') ++ [s 'b']) = true ∧
    oddA.rank (s 'b' :: List.replicate 19 (s 'a') ++ [s 'b']) = (2 ^ 20 - 1) + 2 ^ 19 := by
  decide +kernel

/-- **C129** For any NFA the numbers of words and the places can be read off the table of its DFA: the place is that in the enumeration after the
epsilon moves have been removed. -/
theorem C129_nfa (ordT : Nat → Nat → List Nat → List Nat) (hordT : ∀ s c l, (ordT s c l).Perm l) (ordDead : List Nat → List Nat)
    (hordDead : ∀ l, (ordDead l).Perm l) (n : Nfa) (hn : n.WF) :
    ∃ d e, n.toDfa = some d ∧ n.removeEpsilonMoves ordT ordDead = some e ∧
      (∀ m, {w | n.accepts w = true ∧ w.length = m}.ncard = d.count m) ∧
      ∀ k rs, e.wordComponents k = some rs → ∀ i < k, ∀ w, rs[i]? = some (some w) ↔ n.accepts w = true ∧ d.rank w = i := by
  obtain ⟨d, h1, hd, hal, _, h2⟩ := C19_to_dfa n hn
  obtain ⟨e, h3, he, heal, h4, _, _, h5⟩ := C25_remove_epsilon_moves ordT hordT ordDead hordDead n hn
  refine ⟨d, e, h1, h3, fun m => ?_, fun k rs hrs i hi w => ?_⟩
  · simp only [← h2]
    exact (C129_table d hd m).2
  · rw [C129_place e he h4 k rs hrs i hi w]
    simp only [h5, ← h2, heal, ← hal]
    refine and_congr_right fun hw => ?_
    rw [← Dfa.rank_spec hd w (Dfa.over_of_lang hd ((C01_dfa_accepts_iff d hd w).1 hw))]
    simp only [C01_dfa_accepts_iff d hd]

/-- An NFA with epsilon moves. -/
example : epsNfa.WF ∧ epsNfa.hasEpsilonMoves = true ∧ epsNfa.toDfa.map (fun d => (List.range 5).map d.count) = some [1, 1, 2, 4, 8] ∧
    ((epsNfa.removeEpsilonMoves (fun _ _ l => l) id).bind (fun e => e.wordComponents 5)).map (fun rs => rs.map (fun r => r.map (·.length))) =
      some [some 0, some 1, some 2, some 2, some 3] :=
  ⟨epsNfa_wf, by decide, by decide, by decide⟩

/-- **C129** A DFA and its inverse accept together all words of each length. -/
theorem C129_invert (d : Dfa) (hd : d.WF) (m : Nat) : d.invert.count m + d.count m = d.alphabet.length ^ m := by
  refine Dfa.countFrom_flip hd ?_ m _ hd.init_lt
  intro q s hs
  exact ⟨{ s with accepting := !s.accepting }, by simp [Dfa.invert, hs], rfl, rfl⟩

example : (List.range 5).map oddA.invert.count = [1, 1, 2, 4, 8] := by decide

/-- **C129** How the numbers of words of a length of the results depend on those of the operands. -/
theorem C129_operations (ord : List (Nat × Nat) → List (Nat × Nat)) (hord : ∀ l, (ord l).Perm l) (d o : Dfa) (hd : d.WF) (ho : o.WF)
    (hs : SameElems d.alphabet o.alphabet) :
    ∃ u p q x, Dfa.union ord d o = some (some u) ∧ Dfa.intersection ord d o = some (some p) ∧ Dfa.difference ord d o = some (some q) ∧
      Dfa.symmetricDifference ord d o = some (some x) ∧ ∀ m, u.count m + p.count m = d.count m + o.count m ∧ q.count m + p.count m = d.count m ∧
        x.count m + p.count m = u.count m := by
  obtain ⟨⟨u, u1, u2, _, u4⟩, ⟨p, p1, p2, _, p4⟩, ⟨q, q1, q2, _, q4⟩, ⟨x, x1, x2, _, x4⟩⟩ := (C09_dfa_set_operations ord hord d o hd ho).2 hs
  refine ⟨u, p, q, x, u1, p1, q1, x1, fun m => ?_⟩
  obtain ⟨fd, cd⟩ := Dfa.count_spec hd m
  obtain ⟨fo, co⟩ := Dfa.count_spec ho m
  obtain ⟨fu, cu⟩ := Dfa.count_spec u2 m
  obtain ⟨fp, cp⟩ := Dfa.count_spec p2 m
  obtain ⟨fq, cq⟩ := Dfa.count_spec q2 m
  obtain ⟨fx, cx⟩ := Dfa.count_spec x2 m
  rw [← cd, ← co, ← cu, ← cp, ← cq, ← cx]
  refine ⟨?_, ?_, ?_⟩
  · rw [← Set.ncard_union_add_ncard_inter _ _ fd fo]
    congr 2
    · ext w
      simp only [Set.mem_union, Set.mem_ofPred_eq, u4]
      tauto
    · ext w
      simp only [Set.mem_inter_iff, Set.mem_ofPred_eq, p4]
      tauto
  · rw [← Set.ncard_union_eq (Set.disjoint_left.2 fun w h1 h2 => ?_) fq fp]
    · congr 1
      ext w
      simp only [Set.mem_union, Set.mem_ofPred_eq, q4, p4]
      tauto
    · exact ((q4 w).1 h1.1).2 ((p4 w).1 h2.1).2
  · rw [← Set.ncard_union_eq (Set.disjoint_left.2 fun w h1 h2 => ?_) fx fp]
    · congr 1
      ext w
      simp only [Set.mem_union, Set.mem_ofPred_eq, x4, p4, u4]
      tauto
    · have := (p4 w).1 h2.1
      exact (x4 w).1 h1.1 ⟨fun _ => this.2, fun _ => this.1⟩

example : ∃ u p, Dfa.union id oddA endsB = some (some u) ∧ Dfa.intersection id oddA endsB = some (some p) ∧
    (List.range 5).map u.count = [0, 2, 3, 6, 12] ∧ (List.range 5).map p.count = [0, 0, 1, 2, 4] := by
  refine ⟨_, _, rfl, rfl, ?_, ?_⟩ <;> decide

/-- **C129** DFAs with `n` and `m` states are equivalent exactly if their union and their intersection have equally many words of each length up
to `n + m - 2`. -/
theorem C129_equivalent (ord : List (Nat × Nat) → List (Nat × Nat)) (hord : ∀ l, (ord l).Perm l) (d o u p : Dfa) (hd : d.WF) (ho : o.WF)
    (hu : Dfa.union ord d o = some (some u)) (hp : Dfa.intersection ord d o = some (some p)) :
    d.equivalentTo o = some true ↔ ∀ i, i + 2 ≤ d.states.length + o.states.length → u.count i = p.count i := by
  have hs : SameElems d.alphabet o.alphabet := by
    by_contra hc
    have := ((C09_dfa_set_operations ord hord d o hd ho).1 hc).1
    rw [hu] at this
    cases this
  obtain ⟨u', p', _, x, h1, h2, _, h4, h5⟩ := C129_operations ord hord d o hd ho hs
  rw [hu] at h1
  rw [hp] at h2
  cases h1
  cases h2
  obtain ⟨x', g1, g2, _, g4⟩ := ((C09_dfa_set_operations ord hord d o hd ho).2 hs).2.2.2
  rw [h4] at g1
  cases g1
  rw [C109_dfa d o hd ho hs]
  have hacc : ∀ w, d.accepts w = o.accepts w ↔ ¬ x.Lang w := fun w => by
    rw [Bool.eq_iff_iff, C01_dfa_accepts_iff d hd, C01_dfa_accepts_iff o ho, g4, not_not]
  have hx : ∀ i, u.count i = p.count i ↔ ∀ w, w.length = i → ¬ x.Lang w := by
    intro i
    obtain ⟨g5, g6⟩ := Dfa.count_spec g2 i
    have h6 := (h5 i).2.2
    have h7 : x.count i = 0 ↔ ∀ w, w.length = i → ¬ x.Lang w := by
      rw [← g6, Set.ncard_eq_zero g5, Set.eq_empty_iff_forall_notMem]
      exact ⟨fun h w h8 h9 => h w ⟨h9, h8⟩, fun h w h8 => h w h8.2 h8.1⟩
    rw [← h7]
    omega
  constructor
  · intro h i hi
    rw [hx]
    rintro w rfl
    exact (hacc w).1 (h w hi)
  · intro h w hw
    exact (hacc w).2 ((hx _).1 (h _ hw) w rfl)

/-- Words with an odd number of `a`, and words that end with `b`: from length 1 on the numbers differ. -/
example : ∃ u p, Dfa.union id oddA endsB = some (some u) ∧ Dfa.intersection id oddA endsB = some (some p) ∧ u.count 0 = p.count 0 ∧ u.count 1 ≠ p.count 1 := by
  refine ⟨_, _, rfl, rfl, ?_, ?_⟩ <;> decide

/-- Words that begin with `a`, and words that begin with `b`. -/
private def begins (a b : Nat) : Dfa :=
  ⟨[s 'a', s 'b'], [⟨s '0', true, false, [a, b]⟩, ⟨s '1', false, true, [1, 1]⟩, ⟨s '2', false, false, [2, 2]⟩], 0⟩

/-- **C129** Equal numbers of words for all lengths do not make DFAs equivalent. -/
theorem C129_equal_counts_false : ∃ d o : Dfa, d.WF ∧ o.WF ∧ d.alphabet = o.alphabet ∧ (∀ m, d.count m = o.count m) ∧
    d.equivalentTo o = some false := by
  refine ⟨begins 1 2, begins 2 1, Dfa.wf_of_wfB (by decide), Dfa.wf_of_wfB (by decide), rfl, ?_, by decide⟩
  have h : ∀ m, (begins 1 2).countFrom m 1 = (begins 2 1).countFrom m 1 ∧ (begins 1 2).countFrom m 2 = (begins 2 1).countFrom m 2 := by
    intro m
    induction m with
    | zero => exact ⟨rfl, rfl⟩
    | succ m ih => exact ⟨by simp [Dfa.countFrom, begins] at ih ⊢; omega, by simp [Dfa.countFrom, begins] at ih ⊢; omega⟩
  intro m
  cases m with
  | zero => rfl
  | succ m =>
    have := h m
    simp [Dfa.count, Dfa.countFrom, begins] at this ⊢
    omega

end Dandy
