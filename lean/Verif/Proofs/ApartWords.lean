import Verif.Proofs.Apart
import Verif.Proofs.Cli
import Verif.Proofs.Finite
/-! # The items of the iterator over words are determined by the language -/

namespace Dandy
open Cli

/-- What the iterator yields: the first words, then `None`s. -/
theorem wordComponents_first {n : Nfa} (hn : n.WF) (he : ∀ s ∈ n.states, s.epsilonTransitions = []) (k : Nat) :
    ∃ ws m, n.wordComponents k = some (ws.map some ++ List.replicate m none) ∧ ws.length + m = k ∧ FirstWords n.alphabet n.Lang k ws := by
  obtain ⟨rs, _, hlen, _, h1, _⟩ := C32_iterators_agree n hn he k
  obtain ⟨cs, hcs, hclen⟩ : ∃ cs, n.wordComponents k = some cs ∧ cs.length = k := ⟨_, h1, by simp [hlen]⟩
  have hgap := C31_words_no_gap n hn k cs hcs
  obtain ⟨m, hm⟩ := options_split cs (fun j hj i hji hi => (hgap.2 j hj).2 i hji (hclen ▸ hi))
  generalize (cs.takeWhile Option.isSome).filterMap id = ws at hm
  have hget : ∀ (i : Nat) (w : Word), ws[i]? = some w ↔ cs[i]? = some (some w) := by
    intro i w
    rw [hm]
    by_cases hi : i < ws.length
    · rw [List.getElem?_append_left (by simpa using hi)]
      simp
    · rw [List.getElem?_eq_none (by omega), List.getElem?_append_right (by simpa using Nat.le_of_not_lt hi), List.getElem?_replicate]
      split <;> simp
  have hk : ws.length + m = k := by rw [← hclen, hm]; simp
  refine ⟨ws, m, by rw [hcs, hm], hk, ?_, ?_, by omega, ?_⟩
  · intro w hw
    obtain ⟨i, hi⟩ := List.mem_iff_getElem?.1 hw
    exact (C29_words_sound n hn k cs hcs w (List.mem_of_getElem? ((hget i w).1 hi))).1
  · rw [List.pairwise_iff_getElem]
    intro i j hi hj hij
    have hj' := (hget j _).1 (List.getElem?_eq_getElem hj)
    obtain ⟨p, hp, hs⟩ := C30_words_increasing n hn k cs hcs i j hij _ hj'
    have hi' := (hget i _).2 hp
    rw [List.getElem?_eq_getElem hi] at hi'
    cases hi'
    exact hs
  · intro v hv
    by_cases hmem : v ∈ ws
    · exact Or.inl hmem
    · refine Or.inr ⟨?_, fun w hw => ?_⟩
      · by_contra hne
        have hnone : cs[ws.length]? = some none := by
          rw [hm, List.getElem?_append_right (by simp)]
          simp only [List.length_map, Nat.sub_self, List.getElem?_replicate]
          rw [if_pos (by omega)]
        obtain ⟨i, _, hi⟩ := (hgap.2 _ hnone).1 v hv
        exact hmem (List.mem_of_getElem? ((hget i v).2 hi))
      · obtain ⟨i, hi⟩ := List.mem_iff_getElem?.1 hw
        rcases hgap.1 i w ((hget i w).1 hi) v hv with ⟨j, _, hj⟩ | h
        · exact absurd (List.mem_of_getElem? ((hget j v).2 hj)) hmem
        · exact h

theorem items_inj {ws vs : List Word} : ∀ {m m' : Nat},
    ws.map some ++ List.replicate m (none : Option Word) = vs.map some ++ List.replicate m' none → ws = vs := by
  induction ws generalizing vs with
  | nil =>
    intro m m' h
    cases vs with
    | nil => rfl
    | cons v vs =>
      cases m with
      | zero => simp at h
      | succ m => simp [List.replicate_succ] at h
  | cons w ws ih =>
    intro m m' h
    cases vs with
    | nil =>
      cases m' with
      | zero => simp at h
      | succ m' => simp [List.replicate_succ] at h
    | cons v vs =>
      simp only [List.map_cons, List.cons_append, List.cons.injEq, Option.some.injEq] at h
      rw [h.1, ih h.2]

/-- The same language and the same alphabet give the same items. -/
theorem wordComponents_congr {n o : Nfa} (hn : n.WF) (ho : o.WF) (hen : ∀ s ∈ n.states, s.epsilonTransitions = [])
    (heo : ∀ s ∈ o.states, s.epsilonTransitions = []) (ha : n.alphabet = o.alphabet) (hL : ∀ w, n.Lang w ↔ o.Lang w) (k : Nat) :
    n.wordComponents k = o.wordComponents k := by
  obtain ⟨ws, m, h1, h2, h3⟩ := wordComponents_first hn hen k
  obtain ⟨vs, m', g1, g2, g3⟩ := wordComponents_first ho heo k
  have : ws = vs := FirstWords.unique hn.alphabet_nodup h3 (by rw [ha]; exact g3.congr (fun w => (hL w).symm))
  subst this
  obtain rfl : m = m' := by omega
  rw [h1, g1]

/-- A word with fewer than `N` elements is among the first items, as many as there are such words. -/
theorem mem_first {al : List Str} (hnd : al.Nodup) {L : Word → Prop} (hover : ∀ w, L w → Over al w) {N k : Nat} {ws : List Word}
    (h : FirstWords al L k ws) (hk : ∑ i ∈ Finset.range N, al.length ^ i ≤ k) {w : Word} (hw : L w) (hN : w.length < N) : w ∈ ws := by
  rcases h.complete w hw with h' | ⟨h1, h2⟩
  · exact h'
  · exfalso
    have hsub : ∀ v ∈ w :: ws, v ∈ shortWords al N := by
      intro v hv
      rcases List.mem_cons.1 hv with rfl | hv
      · exact mem_shortWords al N v hN (hover v hw)
      · refine mem_shortWords al N v ?_ (hover v (h.sound v hv))
        rcases h2 v hv with h3 | h3 <;> omega
    have hnotin : w ∉ ws := fun hmem => by
      rcases h2 w hmem with h3 | ⟨_, p, u', v', a, b, e1, e2, hb⟩
      · omega
      · have := e1.symm.trans e2
        have := (List.append_cancel_left this)
        simp only [List.cons.injEq] at this
        obtain ⟨rfl, _⟩ := this
        obtain ⟨i, j, hi, hj, hij⟩ := hb
        have := (List.getElem?_inj (List.getElem?_eq_some_iff.1 hi).1 hnd).1 (hi.trans hj.symm)
        omega
    have := (List.subperm_of_subset (List.nodup_cons.2 ⟨hnotin, h.nodup hnd⟩) hsub).length_le
    rw [shortWords_length] at this
    simp only [List.length_cons] at this
    omega

end Dandy
