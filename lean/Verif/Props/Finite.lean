import Verif.Proofs.Finite
import Verif.Props.NfaEps
import Verif.Proofs.ToNfa
/-! # C84: when the enumeration of the words of an automaton ends, and after how many words -/

namespace Dandy
open Samples

private theorem ncard_le_of_none {n : Nfa} (hn : n.WF) {k : Nat} {rs : List (Option Word)} (h : n.wordComponents k = some rs)
    {j : Nat} (hj : rs[j]? = some none) : {w | n.Lang w}.Finite ∧ {w | n.Lang w}.ncard ≤ j := by
  classical
  have hsub : {w | n.Lang w} ⊆ ((Finset.range j).image (fun i => (rs[i]?.join).getD []) : Finset Word) := by
    intro w hw
    obtain ⟨i, hi, he⟩ := ((C31_words_no_gap n hn k rs h).2 j hj).1 w hw
    rw [Finset.mem_coe, Finset.mem_image]
    exact ⟨i, Finset.mem_range.2 hi, by rw [he]; rfl⟩
  refine ⟨(Finset.finite_toSet _).subset hsub, ?_⟩
  calc {w | n.Lang w}.ncard ≤ _ := Set.ncard_le_ncard hsub (Finset.finite_toSet _)
    _ = _ := Set.ncard_coe_finset _
    _ ≤ (Finset.range j).card := Finset.card_image_le
    _ = j := Finset.card_range j

private theorem lt_ncard_of_some {n : Nfa} (hn : n.WF) (hf : {w | n.Lang w}.Finite) {k : Nat} {rs : List (Option Word)}
    (h : n.wordComponents k = some rs) {j : Nat} {w : Word} (hj : rs[j]? = some (some w)) : j < {w | n.Lang w}.ncard := by
  classical
  have hall : ∀ i, i ≤ j → ∃ p, rs[i]? = some (some p) := by
    intro i hi
    rcases Nat.lt_or_eq_of_le hi with hlt | rfl
    · obtain ⟨p, hp, _⟩ := C30_words_increasing n hn k rs h i j hlt w hj
      exact ⟨p, hp⟩
    · exact ⟨w, hj⟩
  have hsub : ((Finset.range (j + 1)).image (fun i => (rs[i]?.join).getD []) : Finset Word) ⊆ hf.toFinset := by
    intro v hv
    rw [Finset.mem_image] at hv
    obtain ⟨i, hi, rfl⟩ := hv
    obtain ⟨p, hp⟩ := hall i (by have := Finset.mem_range.1 hi; omega)
    rw [Set.Finite.mem_toFinset, hp]
    exact (C29_words_sound n hn k rs h p (List.mem_of_getElem? hp)).1
  have hc := Finset.card_le_card hsub
  rw [Finset.card_image_of_injOn, Finset.card_range, ← Set.ncard_eq_toFinset_card _ hf] at hc
  · exact hc
  · intro a ha b hb hab
    obtain ⟨p, hp⟩ := hall a (by have := Finset.mem_range.1 (Finset.mem_coe.1 ha); omega)
    obtain ⟨q, hq⟩ := hall b (by have := Finset.mem_range.1 (Finset.mem_coe.1 hb); omega)
    dsimp only at hab
    rw [hp, hq] at hab
    have : p = q := hab
    subst this
    exact C30_words_no_duplicates n hn k rs h a b p hp hq

/-- **C84** For every NFA, epsilon moves or not: the language is finite exactly if every accepted word has fewer elements
than the NFA has states, and then there are at most `1 + a + ... + a ^ (states - 1)` words for an alphabet of `a` elements;
it is infinite exactly if some accepted word has at least as many elements as there are states but fewer than twice as
many; it is nonempty exactly if some accepted word has fewer elements than there are states. -/
theorem C84_finite_iff_short (n : Nfa) (hn : n.WF) :
    ({w | n.Lang w}.Finite ↔ ∀ w, n.Lang w → w.length < n.states.length) ∧
    ({w | n.Lang w}.Finite → {w | n.Lang w}.ncard ≤ ∑ i ∈ Finset.range n.states.length, n.alphabet.length ^ i) ∧
    ({w | n.Lang w}.Infinite ↔ ∃ w, n.Lang w ∧ n.states.length ≤ w.length ∧ w.length < 2 * n.states.length) ∧
    ((∃ w, n.Lang w) ↔ ∃ w, n.Lang w ∧ w.length < n.states.length) := by
  have h1 : {w | n.Lang w}.Finite ↔ ∀ w, n.Lang w → w.length < n.states.length :=
    ⟨Nfa.short_of_finite hn, fun h => (Nfa.finite_of_short _ h).1⟩
  refine ⟨h1, fun h => (Nfa.finite_of_short _ (h1.1 h)).2, ?_, ?_⟩
  · rw [← Set.not_finite, h1]
    constructor
    · intro h
      push Not at h
      obtain ⟨w, hw, hl⟩ := h
      obtain ⟨v, h2, h3, h4⟩ := Nfa.shorten_below hn n.states.length _ w rfl hw hl
      exact ⟨v, h2, h3, by omega⟩
    · rintro ⟨w, hw, hl, _⟩ h
      have := h w hw
      omega
  · constructor
    · rintro ⟨w, hw⟩
      obtain ⟨v, h2, _, h4⟩ := Nfa.shorten_below hn 0 _ w rfl hw (by omega)
      exact ⟨v, h2, by omega⟩
    · rintro ⟨w, hw, _⟩
      exact ⟨w, hw⟩

/-- **C84** The same for DFAs. -/
theorem C84_dfa_finite_iff_short (d : Dfa) (hd : d.WF) :
    ({w | d.Lang w}.Finite ↔ ∀ w, d.Lang w → w.length < d.states.length) ∧
    ({w | d.Lang w}.Infinite ↔ ∃ w, d.Lang w ∧ d.states.length ≤ w.length ∧ w.length < 2 * d.states.length) ∧
    ((∃ w, d.Lang w) ↔ ∃ w, d.Lang w ∧ w.length < d.states.length) := by
  have h := C84_finite_iff_short d.toNfa (Dfa.toNfa_wf hd)
  simp only [Dfa.toNfa_lang, show d.toNfa.states.length = d.states.length by simp [Dfa.toNfa]] at h
  exact ⟨h.1, h.2.2.1, h.2.2.2⟩

/-- **C84** For an NFA without epsilon moves, the iterator over the words ends (returns `None` after finitely many calls)
exactly if the language is finite. -/
theorem C84_words_end (n : Nfa) (hn : n.WF) (he : ∀ s ∈ n.states, s.epsilonTransitions = []) :
    (∃ k rs, n.wordComponents k = some rs ∧ none ∈ rs) ↔ {w | n.Lang w}.Finite := by
  constructor
  · rintro ⟨k, rs, h, hm⟩
    obtain ⟨j, hj⟩ := List.mem_iff_getElem?.1 hm
    exact (ncard_le_of_none hn h hj).1
  · intro hf
    obtain ⟨rs, _, hl, _, h, _⟩ := C32_iterators_agree n hn he ({w | n.Lang w}.ncard + 1)
    refine ⟨_, _, h, ?_⟩
    by_contra hc
    generalize hg : rs.map (Option.map (fun w => w.map (fun a => n.alphabet.getD a []))) = ls at h hc
    have hll : ls.length = {w | n.Lang w}.ncard + 1 := by rw [← hg, List.length_map, hl]
    have hget := List.getElem?_eq_getElem (l := ls) (i := {w | n.Lang w}.ncard) (by omega)
    cases hx : ls[{w | n.Lang w}.ncard]'(by omega) with
    | none => exact hc (by rw [← hx]; exact List.getElem_mem _)
    | some w =>
      rw [hx] at hget
      exact absurd (lt_ncard_of_some hn hf h hget) (by omega)

/-- **C84** The number of words yielded before the first `None` is the number of words of the language: the item with
index `j` is `None` exactly if the language is finite and has at most `j` words. In particular the iterator over an
infinite language never returns `None`. -/
theorem C84_words_count (n : Nfa) (hn : n.WF) (k : Nat) (rs : List (Option Word)) (h : n.wordComponents k = some rs)
    (j : Nat) (hj : j < rs.length) : rs[j]? = some none ↔ {w | n.Lang w}.Finite ∧ {w | n.Lang w}.ncard ≤ j := by
  refine ⟨ncard_le_of_none hn h, ?_⟩
  rintro ⟨hf, hc⟩
  have hget := List.getElem?_eq_getElem hj
  cases hx : rs[j] with
  | none => rw [hget, hx]
  | some w =>
    rw [hx] at hget
    have := lt_ncard_of_some hn hf h hget
    omega

/-- **C84** The first call of `next` returns `None` exactly if `has_reachable_accepting_state` is false. -/
theorem C84_words_none (n : Nfa) (hn : n.WF) (he : ∀ s ∈ n.states, s.epsilonTransitions = []) :
    n.wordComponents 1 = some [none] ↔ n.hasReachableAcceptingState = some false := by
  obtain ⟨_, _, b, hb, hbl⟩ := C27_nfa_reachability n hn
  obtain ⟨rs, _, hl, _, h, _⟩ := C32_iterators_agree n hn he 1
  generalize hg : rs.map (Option.map (fun w => w.map (fun a => n.alphabet.getD a []))) = ls at h
  have hll : ls.length = 1 := by rw [← hg, List.length_map, hl]
  obtain ⟨x, rfl⟩ := List.length_eq_one_iff.1 hll
  rw [h, hb]
  have hc := C84_words_count n hn 1 [x] h 0 (by simp)
  simp only [List.getElem?_cons_zero, Option.some.injEq, Nat.le_zero_eq] at hc
  simp only [Option.some.injEq, List.cons.injEq, and_true]
  rw [hc]
  constructor
  · rintro ⟨hf, h0⟩
    rw [Set.ncard_eq_zero hf] at h0
    cases b with
    | false => rfl
    | true =>
      obtain ⟨w, hw⟩ := hbl.1 rfl
      have : w ∈ {w | n.Lang w} := hw
      rw [h0] at this
      cases this
  · intro h0
    subst h0
    have hempty : {w | n.Lang w} = ∅ := by
      ext w
      simp only [Set.mem_setOf_eq, Set.mem_empty_iff_false, iff_false]
      intro hw
      have := hbl.2 ⟨w, hw⟩
      cases this
    rw [hempty]
    exact ⟨Set.finite_empty, Set.ncard_empty _⟩

/-- The states of an NFA for the two words `a` and `ab`. -/
private def twoWords : Nfa where
  alphabet := [s 'a', s 'b']
  states := [⟨s '0', true, false, [], [[1], []]⟩, ⟨s '1', false, true, [], [[], [2]]⟩, ⟨s '2', false, true, [], [[], []]⟩]
  initialState := 0

/-- A finite language: the third item is `None`, so there are exactly two words, both shorter than 3. -/
example : {w | twoWords.Lang w}.Finite ∧ {w | twoWords.Lang w}.ncard = 2 ∧ ∀ w, twoWords.Lang w → w.length < 3 := by
  have hn : twoWords.WF := Nfa.wf_of_wfB (by decide)
  have h : twoWords.wordComponents 3 = some [some [s 'a'], some [s 'a', s 'b'], none] := by decide +kernel
  have h2 := (C84_words_count twoWords hn 3 _ h 2 (by simp)).1 rfl
  have h1 := mt (C84_words_count twoWords hn 3 _ h 1 (by simp)).2 (by simp)
  refine ⟨h2.1, ?_, ((C84_finite_iff_short twoWords hn).1.1 h2.1)⟩
  have : ¬ {w | twoWords.Lang w}.ncard ≤ 1 := fun h => h1 ⟨h2.1, h⟩
  have := h2.2
  omega

/-- An infinite language: the iterator over the words of `evenA` never returns `None`. -/
example : {w | evenA.Lang w}.Infinite ∧ ∀ k rs, evenA.wordComponents k = some rs → none ∉ rs := by
  have hn : evenA.WF := Nfa.wf_of_wfB (by decide)
  have hinf : {w | evenA.Lang w}.Infinite := by
    rw [(C84_finite_iff_short evenA hn).2.2.1]
    exact ⟨[s 'a', s 'b', s 'b', s 'b'], (C02_nfa_accepts_iff evenA hn _).1 (by decide +kernel), by decide, by decide⟩
  refine ⟨hinf, fun k rs h hm => hinf ?_⟩
  exact (C84_words_end evenA hn (by decide)).1 ⟨k, rs, h, hm⟩

/-! ## Instances of the theorems of this file -/

example := C84_dfa_finite_iff_short Samples.redundant Samples.redundant_wf

end Dandy
