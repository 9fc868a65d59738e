import Mathlib.Data.Finset.Card
import Mathlib.Data.Finset.Range
import Verif.Props.Residual
import Verif.Props.DfaProduct
/-! # C133: test words that settle what a DFA accepts -/

namespace Dandy
open Samples

private theorem same_state {o : Dfa} (ho : o.WF) {x y : Word} (h : o.runE o.initialState x = o.runE o.initialState y) (z : Word) :
    o.accepts (x ++ z) = o.accepts (y ++ z) := by
  rw [Bool.eq_iff_iff, C01_dfa_accepts_iff o ho, C01_dfa_accepts_iff o ho, Dfa.lang_iff ho, Dfa.lang_iff ho, Dfa.runE_append, Dfa.runE_append, h]

private theorem over_append {A : List Str} {u v : Word} (hu : Over A u) (hv : Over A v) : Over A (u ++ v) := fun e he =>
  (List.mem_append.1 he).elim (hu e) (hv e)

/-- **C133** Let `f` tell which words should be accepted, and let words in `W` tell apart what can be told apart by continuations at all. Let `V` contain
the empty word and `D` words that can be told apart, and let the DFA have at most `k` more states than those. If the DFA is right on all words
`v m w` with `v` in `V`, at most `k + 1` elements between, and `w` in `W`, then it is right on all words. -/
theorem C133_suite (f : Word → Bool) (o : Dfa) (ho : o.WF) (V W D : List Word) (k : Nat) (hV : ∀ v ∈ V, Over o.alphabet v) (hV0 : [] ∈ V)
    (hW0 : [] ∈ W)
    (hW : ∀ u v z, Over o.alphabet u → Over o.alphabet v → Over o.alphabet z → f (u ++ z) ≠ f (v ++ z) → ∃ w ∈ W, f (u ++ w) ≠ f (v ++ w))
    (hD : ∀ v ∈ D, v ∈ V) (hDp : D.Pairwise (fun u v => ∃ z, Over o.alphabet z ∧ f (u ++ z) ≠ f (v ++ z))) (hk : o.states.length ≤ D.length + k)
    (hag : ∀ v ∈ V, ∀ m, Over o.alphabet m → m.length ≤ k + 1 → ∀ w ∈ W, o.accepts (v ++ m ++ w) = f (v ++ m ++ w)) (x : Word)
    (hx : Over o.alphabet x) : o.accepts x = f x := by
  classical
  let N := o.states.length
  let S : Nat → Finset Nat := fun j => (Finset.range N).filter
    (fun q => ∃ v ∈ V, ∃ m, Over o.alphabet m ∧ m.length ≤ j ∧ o.runE o.initialState (v ++ m) = some q)
  have memS : ∀ {j v m q}, v ∈ V → Over o.alphabet m → m.length ≤ j → o.runE o.initialState (v ++ m) = some q → q ∈ S j := by
    intro j v m q hv hm hj hr
    exact Finset.mem_filter.2 ⟨Finset.mem_range.2 (Dfa.runE_lt ho ho.init_lt hr), v, hv, m, hm, hj, hr⟩
  have mono : ∀ j, S j ⊆ S (j + 1) := by
    intro j q hq
    obtain ⟨_, v, hv, m, hm, hj, hr⟩ := Finset.mem_filter.1 hq
    exact memS hv hm (by omega) hr
  have snoc : ∀ {q : Nat} {v m : Word} {e : Str}, o.runE o.initialState (v ++ m) = some q → o.runE o.initialState (v ++ (m ++ [e])) = o.runE q [e] := by
    intro q v m e h
    rw [← List.append_assoc, Dfa.runE_append, h]
    rfl
  -- the states reached by the words of `D` are different
  have start : D.length ≤ (S 0).card := by
    have ex : ∀ v : {v // v ∈ D}, ∃ q, o.runE o.initialState v.1 = some q := fun v => Dfa.runE_exists _ (hV v.1 (hD v.1 v.2))
    choose g hg using ex
    have hnd : (D.attach.map g).Nodup := by
      rw [List.nodup_iff_pairwise_ne, List.pairwise_map, List.pairwise_iff_getElem]
      intro i j hi hj hij
      rw [List.length_attach] at hi hj
      obtain ⟨z, hz, hne⟩ := List.pairwise_iff_getElem.1 hDp i j hi hj hij
      intro he
      rw [List.getElem_attach, List.getElem_attach] at he
      have hi' := hD _ (List.getElem_mem hi)
      have hj' := hD _ (List.getElem_mem hj)
      obtain ⟨w, hw, hne'⟩ := hW _ _ z (hV _ hi') (hV _ hj') hz hne
      have h1 := hag _ hi' [] (by simp [Over]) (by simp) w hw
      have h2 := hag _ hj' [] (by simp [Over]) (by simp) w hw
      rw [List.append_nil] at h1 h2
      apply hne'
      rw [← h1, ← h2]
      exact same_state ho ((hg ⟨D[i], List.getElem_mem hi⟩).trans ((congrArg some he).trans (hg ⟨D[j], List.getElem_mem hj⟩).symm)) w
    have hsub : (D.attach.map g).toFinset ⊆ S 0 := by
      intro q hq
      rw [List.mem_toFinset, List.mem_map] at hq
      obtain ⟨v, _, rfl⟩ := hq
      exact memS (m := []) (hD v.1 v.2) (by simp [Over]) (by simp) (by rw [List.append_nil]; exact hg v)
    have := Finset.card_le_card hsub
    rw [List.toFinset_card_of_nodup hnd] at this
    simpa using this
  have closedSucc : ∀ j, S (j + 1) = S j → ∀ q ∈ S j, ∀ e ∈ o.alphabet, ∀ t, o.runE q [e] = some t → t ∈ S j := by
    intro j hj q hq e he t ht
    obtain ⟨_, v, hv, m, hm, hl, hr⟩ := Finset.mem_filter.1 hq
    rw [← hj]
    refine memS hv (m := m ++ [e]) (over_append hm (by simpa [Over] using he)) (by simp; omega) ?_
    rw [snoc hr, ht]
  have stable : ∀ j, (∀ q ∈ S j, ∀ e ∈ o.alphabet, ∀ t, o.runE q [e] = some t → t ∈ S j) → S (j + 1) = S j := by
    intro j hc
    refine Finset.Subset.antisymm (fun q hq => ?_) (mono j)
    obtain ⟨_, v, hv, m, hm, hl, hr⟩ := Finset.mem_filter.1 hq
    rcases List.eq_nil_or_concat m with rfl | ⟨m', e, rfl⟩
    · exact memS hv hm (by simp) hr
    · rw [List.concat_eq_append] at hm hl hr
      have hm' : Over o.alphabet m' := fun a ha => hm a (by simp [ha])
      obtain ⟨p, hp⟩ := Dfa.runE_exists (d := o) o.initialState (over_append (hV v hv) hm')
      rw [snoc hp] at hr
      refine hc p (memS hv hm' (by simp at hl; omega) hp) e (hm e (by simp)) q hr
  have grow : ∀ j, D.length + j ≤ (S j).card ∨ ∀ q ∈ S j, ∀ e ∈ o.alphabet, ∀ t, o.runE q [e] = some t → t ∈ S j := by
    intro j
    induction j with
    | zero => exact .inl start
    | succ j ih =>
      by_cases hj : S (j + 1) = S j
      · have := closedSucc j hj
        exact .inr (by rw [hj]; exact this)
      · rcases ih with ih | ih
        · refine .inl ?_
          have : (S j).card < (S (j + 1)).card := Finset.card_lt_card ⟨mono j, fun h => hj (Finset.Subset.antisymm h (mono j))⟩
          omega
        · exact absurd (stable j ih) hj
  have closed : ∀ q ∈ S k, ∀ e ∈ o.alphabet, ∀ t, o.runE q [e] = some t → t ∈ S k := by
    rcases grow k with h | h
    · have hall : S k = Finset.range N := by
        refine Finset.eq_of_subset_of_card_le (Finset.filter_subset _ _) ?_
        rw [Finset.card_range]
        exact hk.trans h
      intro q hq e _ t ht
      rw [hall, Finset.mem_range] at hq ⊢
      exact Dfa.runE_lt ho hq ht
    · exact h
  -- every word has a representative with few elements
  have rep : ∀ y, Over o.alphabet y → ∃ v ∈ V, ∃ m, Over o.alphabet m ∧ m.length ≤ k ∧
      o.runE o.initialState (v ++ m) = o.runE o.initialState y ∧ ∀ z, Over o.alphabet z → f (v ++ m ++ z) = f (y ++ z) := by
    intro y
    induction y using List.reverseRecOn with
    | nil => exact fun _ => ⟨[], hV0, [], by simp [Over], by simp, rfl, fun _ _ => rfl⟩
    | append_singleton y e ih =>
      intro hy
      have hy' : Over o.alphabet y := fun a ha => hy a (by simp [ha])
      have he : e ∈ o.alphabet := hy e (by simp)
      have he1 : Over o.alphabet [e] := by simpa [Over] using he
      obtain ⟨v, hv, m, hm, hl, hr, hf⟩ := ih hy'
      obtain ⟨q, hq⟩ := Dfa.runE_exists (d := o) o.initialState (over_append (hV v hv) hm)
      obtain ⟨t, ht⟩ := Dfa.runE_exists (d := o) q he1
      obtain ⟨_, v', hv', m', hm', hl', hr'⟩ := Finset.mem_filter.1 (closed q (memS hv hm hl hq) e he t ht)
      refine ⟨v', hv', m', hm', hl', ?_, ?_⟩
      · rw [hr', Dfa.runE_append, ← hr, hq]
        exact ht.symm
      · intro z hz
        have e1 : f (y ++ [e] ++ z) = f (v ++ (m ++ [e]) ++ z) := by
          rw [List.append_assoc y, ← hf ([e] ++ z) (over_append he1 hz)]
          simp
        rw [e1]
        by_contra hne
        obtain ⟨w, hw, hne'⟩ := hW (v' ++ m') (v ++ (m ++ [e])) z (over_append (hV v' hv') hm')
          (over_append (hV v hv) (over_append hm he1)) hz hne
        apply hne'
        rw [← hag v' hv' m' hm' (by omega) w hw, ← hag v hv (m ++ [e]) (over_append hm he1) (by simp; omega) w hw]
        exact same_state ho (by rw [hr', snoc hq, ht]) w
  obtain ⟨v, hv, m, hm, hl, hr, hf⟩ := rep x hx
  have h1 := hf [] (by simp [Over])
  rw [List.append_nil, List.append_nil] at h1
  have h2 := same_state ho hr []
  rw [List.append_nil, List.append_nil] at h2
  rw [← h1, ← h2]
  have := hag v hv m hm (by omega) [] hW0
  rwa [List.append_nil] at this

/-- Which words have an odd number of `a`. -/
private def oddCount (w : Word) : Bool := decide (w.count (s 'a') % 2 = 1)

private theorem oddCount_apart (u v z : Word) (h : oddCount (u ++ z) ≠ oddCount (v ++ z)) : ∃ w ∈ ([[]] : List Word), oddCount (u ++ w) ≠ oddCount (v ++ w) := by
  refine ⟨[], by simp, ?_⟩
  unfold oddCount at h ⊢
  rw [List.count_append, List.count_append] at h
  rw [List.append_nil, List.append_nil]
  intro he
  apply h
  rw [decide_eq_decide] at he ⊢
  omega

/-- `oddA` has 3 states, one more than the words `ε`, `a` that can be told apart; so words with two elements between settle it. -/
private theorem oddA_count : ∀ x, Over oddA.alphabet x → oddA.accepts x = oddCount x := by
  refine C133_suite oddCount oddA oddA_wf [[], [s 'a']] [[]] [[], [s 'a']] 1 (by decide) (by simp) (by simp)
    (fun u v z _ _ _ h => oddCount_apart u v z h) (fun _ h => h) ?_ (by decide) ?_
  · exact .cons (by intro v hv; cases List.mem_singleton.1 hv; exact ⟨[], by decide, by decide⟩) (List.pairwise_singleton _ _)
  · have two : ∀ x ∈ [s 'a', s 'b'], ∀ y ∈ [s 'a', s 'b'], ∀ v ∈ ([[], [s 'a']] : List Word), ∀ w ∈ ([[]] : List Word),
        oddA.accepts (v ++ [] ++ w) = oddCount (v ++ [] ++ w) ∧ oddA.accepts (v ++ [x] ++ w) = oddCount (v ++ [x] ++ w) ∧
          oddA.accepts (v ++ [x, y] ++ w) = oddCount (v ++ [x, y] ++ w) := by decide
    intro v hv m hm hl w hw
    match m, hm, hl with
    | [], _, _ => exact (two (s 'a') (by simp) (s 'a') (by simp) v hv w hw).1
    | [x], hm, _ => exact (two x (hm x (by simp)) (s 'a') (by simp) v hv w hw).2.1
    | [x, y], hm, _ => exact (two x (hm x (by simp)) y (hm y (by simp)) v hv w hw).2.2
    | _ :: _ :: _ :: _, _, hl => simp at hl

/-- A DFA with two states that agrees with `oddCount` on `ε` and `a`. -/
private def someA : Dfa := { alphabet := [s 'a'], states := [⟨s 'n', true, false, [1]⟩, ⟨s 'y', false, true, [1]⟩], initialState := 0 }

private theorem someA_wf : someA.WF := Dfa.wf_of_wfB (by decide)

/-- **C133** With at most `k` elements between it is not enough. -/
theorem C133_shorter_false : ¬ ∀ (f : Word → Bool) (o : Dfa) (V W D : List Word) (k : Nat), o.WF → (∀ v ∈ V, Over o.alphabet v) → [] ∈ V → [] ∈ W →
    (∀ u v z, Over o.alphabet u → Over o.alphabet v → Over o.alphabet z → f (u ++ z) ≠ f (v ++ z) → ∃ w ∈ W, f (u ++ w) ≠ f (v ++ w)) →
    (∀ v ∈ D, v ∈ V) → D.Pairwise (fun u v => ∃ z, Over o.alphabet z ∧ f (u ++ z) ≠ f (v ++ z)) → o.states.length ≤ D.length + k →
    (∀ v ∈ V, ∀ m, Over o.alphabet m → m.length ≤ k → ∀ w ∈ W, o.accepts (v ++ m ++ w) = f (v ++ m ++ w)) →
      ∀ x, Over o.alphabet x → o.accepts x = f x := by
  intro h
  have := h oddCount someA [[], [s 'a']] [[]] [[], [s 'a']] 0 someA_wf (by decide) (by simp) (by simp) (fun u v z _ _ _ h => oddCount_apart u v z h)
    (fun _ h => h) (.cons (by intro v hv; cases List.mem_singleton.1 hv; exact ⟨[], by decide, by decide⟩) (List.pairwise_singleton _ _)) (by decide)
    (by
      intro v hv m _ hl w hw
      have hm : m = [] := List.length_eq_zero_iff.1 (by omega)
      subst hm
      have two : ∀ v ∈ ([[], [s 'a']] : List Word), ∀ w ∈ ([[]] : List Word), someA.accepts (v ++ [] ++ w) = oddCount (v ++ [] ++ w) := by decide
      exact two v hv w hw) [s 'a', s 'a'] (by decide)
  exact absurd this (by decide)

/-- **C133** So if the reference is a DFA over the same elements, the DFAs are equivalent. -/
theorem C133_dfa (d o : Dfa) (hd : d.WF) (ho : o.WF) (hs : SameElems d.alphabet o.alphabet) (V W D : List Word) (k : Nat)
    (hV : ∀ v ∈ V, Over o.alphabet v) (hV0 : [] ∈ V) (hW0 : [] ∈ W)
    (hW : ∀ u v z, Over o.alphabet u → Over o.alphabet v → d.accepts (u ++ z) ≠ d.accepts (v ++ z) → ∃ w ∈ W, d.accepts (u ++ w) ≠ d.accepts (v ++ w))
    (hD : ∀ v ∈ D, v ∈ V) (hDp : D.Pairwise (fun u v => ∃ z, d.accepts (u ++ z) ≠ d.accepts (v ++ z))) (hk : o.states.length ≤ D.length + k)
    (hag : ∀ v ∈ V, ∀ m, Over o.alphabet m → m.length ≤ k + 1 → ∀ w ∈ W, o.accepts (v ++ m ++ w) = d.accepts (v ++ m ++ w)) :
    d.equivalentTo o = some true := by
  have foreign : ∀ {w}, ¬ Over o.alphabet w → d.accepts w = false ∧ o.accepts w = false := by
    intro w hw
    unfold Over at hw
    push Not at hw
    obtain ⟨e, h1, h2⟩ := hw
    exact ⟨C01_dfa_rejects_foreign d hd w e h1 (fun h => h2 ((hs e).1 h)), C01_dfa_rejects_foreign o ho w e h1 h2⟩
  refine (C11_dfa_equivalent_to d o hd ho).2.2 ⟨hs, fun w => ?_⟩
  rw [← C01_dfa_accepts_iff d hd, ← C01_dfa_accepts_iff o ho, ← Bool.eq_iff_iff]
  by_cases hw : Over o.alphabet w
  · refine (C133_suite d.accepts o ho V W D k hV hV0 hW0 (fun u v z hu hv _ h => hW u v z hu hv h) hD (hDp.imp ?_) hk hag w hw).symm
    rintro u v ⟨z, hz⟩
    refine ⟨z, ?_, hz⟩
    by_contra hn
    apply hz
    rw [(foreign fun h => hn fun e he => h e (List.mem_append_right u he)).1, (foreign fun h => hn fun e he => h e (List.mem_append_right v he)).1]
  · rw [(foreign hw).1, (foreign hw).2]

/-- A DFA with two states over the elements of `oddA` in another order. -/
private def oddB : Dfa :=
  { alphabet := [s 'b', s 'a'], states := [⟨s 'e', true, false, [0, 1]⟩, ⟨s 'o', false, true, [1, 0]⟩], initialState := 0 }

private theorem oddB_wf : oddB.WF := Dfa.wf_of_wfB (by decide)

/-- Here one element between is enough. -/
example : oddA.equivalentTo oddB = some true := by
  have hs : SameElems oddA.alphabet oddB.alphabet := by intro e; simp [oddA, oddB, or_comm]
  have hov : ∀ {w : Word}, Over oddB.alphabet w → Over oddA.alphabet w := fun h e he => (hs e).2 (h e he)
  refine C133_dfa oddA oddB oddA_wf oddB_wf hs [[], [s 'a']] [[]] [[], [s 'a']] 0 (by decide) (by simp) (by simp) ?_ (fun _ h => h) ?_ (by decide) ?_
  · intro u v z hu hv hne
    by_cases hz : Over oddB.alphabet z
    · have o1 : ∀ {x : Word}, Over oddB.alphabet x → Over oddA.alphabet (x ++ z) := fun hx => over_append (hov hx) (hov hz)
      rw [oddA_count _ (o1 hu), oddA_count _ (o1 hv)] at hne
      obtain ⟨w, hw, h⟩ := oddCount_apart u v z hne
      refine ⟨w, hw, ?_⟩
      cases List.mem_singleton.1 hw
      rwa [List.append_nil, List.append_nil, oddA_count _ (hov hu), oddA_count _ (hov hv), ← List.append_nil u, ← List.append_nil v]
    · unfold Over at hz
      push Not at hz
      obtain ⟨e, h1, h2⟩ := hz
      have hf : ∀ u : Word, oddA.accepts (u ++ z) = false := fun u =>
        C01_dfa_rejects_foreign oddA oddA_wf (u ++ z) e (List.mem_append_right u h1) (fun h => h2 ((hs e).1 h))
      exact absurd ((hf u).trans (hf v).symm) hne
  · exact .cons (by intro v hv; cases List.mem_singleton.1 hv; exact ⟨[], by decide⟩) (List.pairwise_singleton _ _)
  · have one : ∀ x ∈ [s 'b', s 'a'], ∀ v ∈ ([[], [s 'a']] : List Word), ∀ w ∈ ([[]] : List Word),
        oddB.accepts (v ++ [] ++ w) = oddA.accepts (v ++ [] ++ w) ∧ oddB.accepts (v ++ [x] ++ w) = oddA.accepts (v ++ [x] ++ w) := by decide
    intro v hv m hm hl w hw
    match m, hm, hl with
    | [], _, _ => exact (one (s 'a') (by simp) v hv w hw).1
    | [x], hm, _ => exact (one x (hm x (by simp)) v hv w hw).2
    | _ :: _ :: _, _, hl => simp at hl

/-- Few words tell apart all that can be told apart among `n` things. -/
private theorem separating (n : Nat) (hn : 0 < n) (acc : Nat → Word → Bool) :
    ∃ W : List Word, [] ∈ W ∧ W.length ≤ n ∧ ∀ p < n, ∀ q < n, (∃ z, acc p z ≠ acc q z) → ∃ w ∈ W, acc p w ≠ acc q w := by
  classical
  let cls : List Word → Nat := fun W => ((Finset.range n).image (fun q => W.map (acc q))).card
  have hle : ∀ W, cls W ≤ n := fun W => Finset.card_image_le.trans (Finset.card_range n).le
  have key : ∀ c W, n - cls W ≤ c → [] ∈ W → W.length ≤ cls W →
      ∃ W' : List Word, [] ∈ W' ∧ W'.length ≤ n ∧ ∀ p < n, ∀ q < n, (∃ z, acc p z ≠ acc q z) → ∃ w ∈ W', acc p w ≠ acc q w := by
    intro c
    induction c with
    | zero =>
      intro W hc h0 hl
      refine ⟨W, h0, hl.trans (hle W), fun p hp q hq hz => ?_⟩
      by_contra hno
      push Not at hno
      have hinj : Set.InjOn (fun q => W.map (acc q)) (Finset.range n : Set Nat) := by
        refine Finset.injOn_of_card_image_eq ?_
        rw [Finset.card_range]
        have := hle W
        change cls W = n
        omega
      have : p = q := hinj (by simpa using hp) (by simpa using hq) (List.map_congr_left hno)
      subst this
      obtain ⟨z, hz⟩ := hz
      exact hz rfl
    | succ c ih =>
      intro W hc h0 hl
      by_cases hsep : ∀ p < n, ∀ q < n, (∃ z, acc p z ≠ acc q z) → ∃ w ∈ W, acc p w ≠ acc q w
      · exact ⟨W, h0, hl.trans (hle W), hsep⟩
      · push Not at hsep
        obtain ⟨p, hp, q, hq, ⟨z, hz⟩, hno⟩ := hsep
        have hlt : cls W < cls (z :: W) := by
          have e : (Finset.range n).image (fun q => W.map (acc q)) = ((Finset.range n).image (fun q => (z :: W).map (acc q))).image List.tail := by
            rw [Finset.image_image]
            rfl
          have h1 : cls W ≤ cls (z :: W) := by
            change (Finset.image _ _).card ≤ _
            rw [e]
            exact Finset.card_image_le
          refine lt_of_le_of_ne h1 fun he => ?_
          have hinj := Finset.injOn_of_card_image_eq (s := (Finset.range n).image (fun q => (z :: W).map (acc q))) (f := List.tail) (by
            rw [← e]
            exact he)
          have := hinj (Finset.mem_coe.2 (Finset.mem_image_of_mem (fun q => (z :: W).map (acc q)) (Finset.mem_range.2 hp)))
            (Finset.mem_coe.2 (Finset.mem_image_of_mem (fun q => (z :: W).map (acc q)) (Finset.mem_range.2 hq)))
            (List.map_congr_left hno)
          exact hz (List.cons.inj this).1
        exact ih (z :: W) (by omega) (List.mem_cons_of_mem _ h0) (by simp only [List.length_cons]; omega)
  refine key n [[]] (by omega) (by simp) ?_
  change 1 ≤ _
  exact Finset.card_pos.2 ⟨_, Finset.mem_image_of_mem _ (Finset.mem_range.2 hn)⟩

/-- **C133** For every DFA there are such words: as many beginnings as `minimize` leaves states, and at most as many ends, whatever DFA over the same
elements is tested. -/
theorem C133_exists (ordU ord ordKeys : List Nat → List Nat) (hU : ∀ l, (ordU l).Perm l) (hord : ∀ l, (ord l).Perm l)
    (hK : ∀ l, (ordKeys l).Perm l) (d m : Dfa) (hd : d.WF) (h : d.minimize ordU ord ordKeys = some m) :
    ∃ V W : List Word, V.length = m.states.length ∧ W.length ≤ m.states.length ∧
      ∀ (k : Nat) (o : Dfa), o.WF → SameElems d.alphabet o.alphabet → o.states.length ≤ m.states.length + k →
        (d.equivalentTo o = some true ↔
          ∀ v ∈ V, ∀ x, Over o.alphabet x → x.length ≤ k + 1 → ∀ w ∈ W, o.accepts (v ++ x ++ w) = d.accepts (v ++ x ++ w)) := by
  obtain ⟨m', h1, hm, h3, h4, _⟩ := C16_minimize ordU ord ordKeys hU hord hK d hd
  rw [h] at h1
  cases h1
  obtain ⟨h5, h6⟩ := C16_minimize_reduced ordU ord ordKeys hU hord hK d m hd h
  have hacc : ∀ w, d.accepts w = m.accepts w := by
    intro w
    rw [Bool.eq_iff_iff, C01_dfa_accepts_iff d hd, C01_dfa_accepts_iff m hm, h4]
  have hex : ∀ q : Nat, ∃ w, (q < m.states.length → m.runE m.initialState w = some q) ∧ (q = m.initialState → w = []) := by
    intro q
    by_cases hq : q = m.initialState
    · exact ⟨[], fun _ => by rw [hq]; rfl, fun _ => rfl⟩
    · by_cases hl : q < m.states.length
      · obtain ⟨w, hw⟩ := h5 q hl
        exact ⟨w, fun _ => (Dfa.run_iff hm hm.init_lt).1 hw, fun h => absurd h hq⟩
      · exact ⟨[], fun h => absurd h hl, fun _ => rfl⟩
  choose g hg hg0 using hex
  have hover : ∀ q < m.states.length, Over d.alphabet (g q) := fun q hq => by
    rw [← h3]
    exact Dfa.over_of_runE (hg q hq)
  obtain ⟨W, hW0, hWl, hW⟩ := separating m.states.length (Nat.zero_lt_of_lt hm.init_lt) (fun q w => m.accepts (g q ++ w))
  have apart : ∀ p < m.states.length, ∀ q < m.states.length, p ≠ q → ∃ z, m.accepts (g p ++ z) ≠ m.accepts (g q ++ z) := by
    intro p hp q hq hne
    by_contra hno
    push Not at hno
    refine hne (h6 p hp q hq fun w => ?_)
    have := hno w
    rw [Bool.eq_iff_iff, C01_dfa_accepts_iff m hm, C01_dfa_accepts_iff m hm] at this
    unfold Dfa.Lang at this
    simp only [Dfa.run_iff hm hm.init_lt, Dfa.runE_append, hg p hp, hg q hq, Option.bind_some] at this
    simp only [Dfa.run_iff hm hp, Dfa.run_iff hm hq]
    exact this
  refine ⟨(List.range m.states.length).map g, W, by simp, hWl, fun k o ho hs hk => ⟨fun he => ?_, fun hag => ?_⟩⟩
  · intro v _ x _ _ w _
    have := ((C11_dfa_equivalent_to d o hd ho).2.1 he).2 (v ++ x ++ w)
    rw [Bool.eq_iff_iff, C01_dfa_accepts_iff d hd, C01_dfa_accepts_iff o ho, this]
  · have hoc : ∀ {w}, Over o.alphabet w ↔ Over d.alphabet w := fun {w} =>
      ⟨fun h e he => (hs e).2 (h e he), fun h e he => (hs e).1 (h e he)⟩
    refine C133_dfa d o hd ho hs ((List.range m.states.length).map g) W ((List.range m.states.length).map g) k ?_ ?_ hW0 ?_ (fun _ h => h) ?_
      (by simpa using hk) hag
    · intro v hv
      obtain ⟨q, hq, rfl⟩ := List.mem_map.1 hv
      exact hoc.2 (hover q (List.mem_range.1 hq))
    · exact List.mem_map.2 ⟨m.initialState, List.mem_range.2 hm.init_lt, hg0 _ rfl⟩
    · intro u v z hu hv hne
      rw [hoc, ← h3] at hu hv
      obtain ⟨p, hp⟩ := Dfa.runE_exists (d := m) m.initialState hu
      obtain ⟨q, hq⟩ := Dfa.runE_exists (d := m) m.initialState hv
      have hpl := Dfa.runE_lt hm hm.init_lt hp
      have hql := Dfa.runE_lt hm hm.init_lt hq
      have e1 : ∀ z, m.accepts (u ++ z) = m.accepts (g p ++ z) := same_state hm (hp.trans (hg p hpl).symm)
      have e2 : ∀ z, m.accepts (v ++ z) = m.accepts (g q ++ z) := same_state hm (hq.trans (hg q hql).symm)
      simp only [hacc, e1, e2] at hne ⊢
      exact hW p hpl q hql ⟨z, hne⟩
    · rw [List.pairwise_map]
      refine List.nodup_range.imp_of_mem ?_
      intro p q hp hq hne
      simp only [hacc]
      exact apart p (List.mem_range.1 hp) q (List.mem_range.1 hq) hne

/-- For `redundant` (6 states) there are 3 beginnings and at most 3 ends. -/
example : ∃ m, redundant.minimize id id id = some m ∧ m.states.length = 3 := ⟨_, rfl, by decide⟩

end Dandy
