import Verif.Spec.History
import Verif.Props.DfaMinimize
import Verif.Props.DfaProduct
import Verif.Props.NfaEps
import Verif.Props.NfaProduct
import Verif.Props.NfaToDfa
import Verif.Proofs.Regex
import Verif.Proofs.FaParser
/-! # Invariants of histories -/

namespace Dandy

/-- Conditions on names that hold for all generated names. -/
structure NameClosed (P : Str → Prop) : Prop where
  num : ∀ i, P (numStr i)
  new : P ['s', '_', 'n', 'e', 'w']
  pair : ∀ a b, (P a ∨ a = Nfa.noneName) → (P b ∨ b = Nfa.noneName) → P (Dfa.pairName a b)

/-- Valid, names satisfying `P`, alphabet satisfying `Q`. -/
def DGood (P : Str → Prop) (Q : List Str → Prop) (d : Dfa) : Prop := d.WF ∧ (∀ s ∈ d.states, P s.name) ∧ Q d.alphabet

/-- Valid, names satisfying `P`, alphabet satisfying `Q`. -/
def NGood (P : Str → Prop) (Q : List Str → Prop) (n : Nfa) : Prop := n.WF ∧ (∀ s ∈ n.states, P s.name) ∧ Q n.alphabet

/-- Both kinds of automata. -/
def Good (P : Str → Prop) (Q : List Str → Prop) : Dfa ⊕ Nfa → Prop
  | .inl d => DGood P Q d
  | .inr n => NGood P Q n

variable {P : Str → Prop} {Q : List Str → Prop}

theorem product_good (hc : NameClosed P) {ord} (ho : IsOrder ord) {d o r : Dfa} {comb} (h1 : DGood P Q d) (h2 : DGood P Q o)
    (h : Dfa.product ord d o comb = some (some r)) : DGood P Q r := by
  have hwf := (C10_product_wf ord ho d o r h1.1 h2.1 comb h).1
  by_cases hs : SameElems d.alphabet o.alphabet
  · obtain ⟨ks, g, e1, hks, _, hn⟩ := Dfa.product_eq ho h1.1 h2.1 hs comb
    rw [e1] at h
    cases h
    refine ⟨hwf, ?_, h1.2.2⟩
    intro s hs'
    simp only [Dfa.prodOf, List.mem_map] at hs'
    obtain ⟨k, hk, rfl⟩ := hs'
    rcases hn with hn | hn
    · obtain ⟨w, r1, r2⟩ := (hks.mem_iff k).1 hk
      show P (g k)
      rw [hn k hk]
      exact hc.pair _ _ (Or.inl (h1.2.1 _ (Dfa.state_mem (Dfa.runE_lt h1.1 h1.1.init_lt r1))))
        (Or.inl (h2.2.1 _ (Dfa.state_mem (Dfa.runE_lt h2.1 h2.1.init_lt r2))))
    · obtain ⟨i, hi⟩ := hn k hk
      show P (g k)
      rw [hi]
      exact hc.num i
  · rw [(C08_product_none_iff ord ho d o h1.1 h2.1 comb).2.2 hs] at h
    cases h

theorem unreachable_good {ord} (ho : IsOrder ord) {d r : Dfa} (h1 : DGood P Q d)
    (h : d.removeUnreachableStates ord = some r) : DGood P Q r := by
  obtain ⟨d', e1, e2, e3, _, _, e6, _⟩ := C13_remove_unreachable ord ho d h1.1
  rw [e1] at h
  cases h
  refine ⟨e2, ?_, e3 ▸ h1.2.2⟩
  intro s hs
  have := e6.subset (List.mem_map.2 ⟨s, hs, rfl⟩)
  obtain ⟨t, ht, hts⟩ := List.mem_map.1 this
  have : t.name = s.name := congrArg (·.1) hts
  rw [← this]
  exact h1.2.1 t ht

theorem merge_good {ord ordKeys} (ho : IsOrder ord) (hk : IsOrder ordKeys) {d r : Dfa} (h1 : DGood P Q d)
    (h : d.mergeNondistinguishableStates ord ordKeys = some r) : DGood P Q r := by
  obtain ⟨m, _, e1, e2, e3, _⟩ := C15_merge ord ordKeys ho hk d h1.1
  have e4 := (C15_merge_keeps_one_per_class ord ordKeys ho hk d r h1.1 h).1
  rw [e1] at h
  cases h
  refine ⟨e2, ?_, e3 ▸ h1.2.2⟩
  intro s hs
  obtain ⟨t, ht, hts, _⟩ := e4 s hs
  rw [← hts]
  exact h1.2.1 t ht

theorem minimize_good {ordU ord ordKeys} (hu : IsOrder ordU) (ho : IsOrder ord) (hk : IsOrder ordKeys) {d r : Dfa}
    (h1 : DGood P Q d) (h : d.minimize ordU ord ordKeys = some r) : DGood P Q r := by
  unfold Dfa.minimize at h
  cases hx : d.removeUnreachableStates ordU with
  | none => rw [hx] at h; cases h
  | some d' =>
    rw [hx] at h
    exact merge_good ho hk (unreachable_good hu h1 hx) h

theorem toNfa_good {d : Dfa} (h1 : DGood P Q d) : NGood P Q d.toNfa := by
  refine ⟨(C18_to_nfa_lang d h1.1 []).1, ?_, h1.2.2⟩
  intro s hs
  simp only [Dfa.toNfa, List.mem_map] at hs
  obtain ⟨t, ht, rfl⟩ := hs
  exact h1.2.1 t ht

theorem invert_good {d : Dfa} (h1 : DGood P Q d) : DGood P Q d.invert := by
  refine ⟨(C07_invert_complement d h1.1 []).1, ?_, h1.2.2⟩
  intro s hs
  simp only [Dfa.invert, List.mem_map] at hs
  obtain ⟨t, ht, rfl⟩ := hs
  exact h1.2.1 t ht

theorem nfaUnion_good (hc : NameClosed P) {n o r : Nfa} (h1 : NGood P Q n) (h2 : NGood P Q o) (h : n.union o = some (.ok r)) :
    NGood P Q r := by
  obtain ⟨e1, e2, _⟩ := C21_union_lang n o r h1.1 h2.1 h
  obtain ⟨_, _, _, last, e3, e4⟩ := C21_union_names n o r h1.1 h2.1 h
  have hlast : P last := by
    rcases e4 with rfl | ⟨i, rfl⟩
    · exact hc.new
    · exact hc.num i
  refine ⟨e1, ?_, e2 ▸ h1.2.2⟩
  intro s hs
  have hm : s.name ∈ r.states.map (·.name) := List.mem_map.2 ⟨s, hs, rfl⟩
  rcases e3 with e3 | e3 <;> rw [e3] at hm
  · simp only [List.mem_append, List.mem_map, List.mem_singleton] at hm
    rcases hm with (⟨t, ht, hts⟩ | ⟨t, ht, hts⟩) | hm
    · rw [← hts]; exact h1.2.1 t ht
    · rw [← hts]; exact h2.2.1 t ht
    · rw [hm]; exact hlast
  · simp only [List.mem_append, List.mem_map, List.mem_singleton] at hm
    rcases hm with ⟨i, _, hi⟩ | hm
    · rw [← hi]; exact hc.num _
    · rw [hm]; exact hlast

theorem nfaUnion_err {n o n' o' : Nfa} (h1 : n.WF) (h2 : o.WF) (h : n.union o = some (.error (n', o'))) : n' = n ∧ o' = o := by
  by_cases hs : SameElems n.alphabet o.alphabet
  · obtain ⟨u, hu⟩ := (C21_union_err n o h1 h2).2 hs
    rw [hu] at h; cases h
  · rw [(C21_union_err n o h1 h2).1 hs] at h
    cases h
    exact ⟨rfl, rfl⟩

theorem reach_bound {n o : Nfa} (hn : n.WF) (ho : o.WF) (hs : SameElems n.alphabet o.alphabet) {k : Nfa.OPair}
    (h : Relation.ReflTransGen (fun a b => b ∈ Nfa.psucc n o a) (Nfa.pinit n o) k) : Nfa.PBound n o k := by
  induction h with
  | refl => exact ⟨fun q hq => by cases hq; exact hn.init_lt, fun q hq => by cases hq; exact ho.init_lt⟩
  | tail _ h ih => exact Nfa.psucc_bound hn ho hs ih h

theorem nfaProduct_good (hc : NameClosed P) {ord} (hord : IsOrder ord) {n o r : Nfa} {comb} (h1 : NGood P Q n) (h2 : NGood P Q o)
    (h : Nfa.product ord n o comb = some (some r)) : NGood P Q r := by
  obtain ⟨hwf, ha, _⟩ := C23_product_wf ord hord n o r h1.1 h2.1 comb h
  have hs := nfa_product_same hord h1.1 h2.1 h
  obtain ⟨ks, g, e1, hks, _, hn⟩ := Nfa.product_eq hord h1.1 h2.1 hs comb
  rw [e1] at h
  cases h
  refine ⟨hwf, ?_, h1.2.2⟩
  intro s hs'
  simp only [Nfa.prodN, List.mem_map] at hs'
  obtain ⟨k, hk, rfl⟩ := hs'
  rcases hn with hn | hn
  · have hb := reach_bound h1.1 h2.1 hs ((hks.mem_iff k).1 hk)
    show P (g k)
    rw [hn k hk]
    apply hc.pair
    · cases hk1 : k.1 with
      | none => exact Or.inr rfl
      | some q => exact Or.inl (h1.2.1 _ (Nfa.state_mem (hb.1 q hk1)))
    · cases hk2 : k.2 with
      | none => exact Or.inr rfl
      | some q => exact Or.inl (h2.2.1 _ (Nfa.state_mem (hb.2 q hk2)))
  · obtain ⟨i, hi⟩ := hn k hk
    show P (g k)
    rw [hi]
    exact hc.num i

theorem nfaUnreachable_good {ord} (ho : IsOrder ord) {n r : Nfa} (h1 : NGood P Q n)
    (h : n.removeUnreachableStates ord = some r) : NGood P Q r := by
  obtain ⟨n', e1, e2, e3, _, _, e6, _⟩ := C27_nfa_remove_unreachable ord ho n h1.1
  rw [e1] at h
  cases h
  refine ⟨e2, ?_, e3 ▸ h1.2.2⟩
  intro s hs
  have := e6.subset (List.mem_map.2 ⟨s, hs, rfl⟩)
  obtain ⟨t, ht, hts⟩ := List.mem_map.1 this
  have : t.name = s.name := congrArg (·.1) hts
  rw [← this]
  exact h1.2.1 t ht

theorem removeEps_good (hc : NameClosed P) {ordT ordDead} (hT : ∀ s c, IsOrder (ordT s c)) (hD : IsOrder ordDead) {n r : Nfa}
    (h1 : NGood P Q n) (h : n.removeEpsilonMoves ordT ordDead = some r) : NGood P Q r := by
  obtain ⟨m, e1, e2, e3, _⟩ := C25_remove_epsilon_moves ordT hT ordDead hD n h1.1
  obtain ⟨e4, e5⟩ := C25_names ordT hT ordDead hD n h1.1 r h
  rw [e1] at h
  cases h
  refine ⟨e2, ?_, e3 ▸ h1.2.2⟩
  intro s hs
  cases hi : s.initial with
  | false =>
    obtain ⟨t, ht, hts, _⟩ := e4 s hs hi
    rw [← hts]; exact h1.2.1 t ht
  | true =>
    rcases e5 s hs hi with ⟨t, ht, _, hts⟩ | h | ⟨i, h⟩
    · rw [← hts]; exact h1.2.1 t ht
    · rw [h]; exact hc.new
    · rw [h]; exact hc.num i

theorem optimize_good (hc : NameClosed P) {ordU ordT ordDead} (hU : IsOrder ordU) (hT : ∀ s c, IsOrder (ordT s c)) (hD : IsOrder ordDead)
    {n r : Nfa} (h1 : NGood P Q n) (h : n.optimize ordU ordT ordDead = some r) : NGood P Q r := by
  unfold Nfa.optimize at h
  cases hx : n.removeUnreachableStates ordU with
  | none => rw [hx] at h; cases h
  | some n' =>
    rw [hx] at h
    exact removeEps_good hc hT hD (nfaUnreachable_good hU h1 hx) h

theorem toDfa_good (hc : NameClosed P) {n : Nfa} {r : Dfa} (h1 : NGood P Q n) (h : n.toDfa = some r) : DGood P Q r := by
  obtain ⟨d, e1, e2, e3, _⟩ := C19_to_dfa n h1.1
  obtain ⟨_, e4, _⟩ := C19_to_dfa_shape n h1.1 r h
  rw [e1] at h
  cases h
  refine ⟨e2, ?_, e3 ▸ h1.2.2⟩
  intro s hs
  obtain ⟨i, hi⟩ := List.mem_iff_getElem?.1 hs
  rw [e4 i s hi]
  exact hc.num i

/-- Everything obtained from good sources is good. -/
theorem obtained_good (hc : NameClosed P) {srcD srcN} (hD : ∀ d, srcD d → DGood P Q d) (hN : ∀ n, srcN n → NGood P Q n)
    {x : Dfa ⊕ Nfa} (h : Obtained srcD srcN x) : Good P Q x := by
  induction h with
  | dfa h => exact hD _ h
  | nfa h => exact hN _ h
  | invert _ ih => exact invert_good ih
  | union _ ho _ _ h i1 i2 => exact product_good hc ho i1 i2 h
  | intersection _ ho _ _ h i1 i2 => exact product_good hc ho i1 i2 h
  | difference _ ho _ _ h i1 i2 => exact product_good hc ho i1 i2 h
  | symmetricDifference _ ho _ _ h i1 i2 => exact product_good hc ho i1 i2 h
  | product _ _ ho _ _ h i1 i2 => exact product_good hc ho i1 i2 h
  | minimize _ _ _ hu ho hk _ h ih => exact minimize_good hu ho hk ih h
  | merge _ _ ho hk _ h ih => exact merge_good ho hk ih h
  | removeUnreachable _ ho _ h ih => exact unreachable_good ho ih h
  | toNfa _ ih => exact toNfa_good ih
  | nfaUnion _ _ h i1 i2 => exact nfaUnion_good hc i1 i2 h
  | nfaUnionErrLeft _ _ h i1 i2 => rw [(nfaUnion_err i1.1 i2.1 h).1]; exact i1
  | nfaUnionErrRight _ _ h i1 i2 => rw [(nfaUnion_err i1.1 i2.1 h).2]; exact i2
  | nfaIntersection _ ho _ _ h i1 i2 => exact nfaProduct_good hc ho i1 i2 h
  | nfaProduct _ _ ho _ _ h i1 i2 => exact nfaProduct_good hc ho i1 i2 h
  | nfaRemoveUnreachable _ ho _ h ih => exact nfaUnreachable_good ho ih h
  | removeEpsilonMoves _ _ hT hD' _ h ih => exact removeEps_good hc hT hD' ih h
  | optimize _ _ _ hU hT hD' _ h ih => exact optimize_good hc hU hT hD' ih h
  | toDfa _ h ih => exact toDfa_good hc ih h

/-! ### Legal names -/
open TableText Fa

theorem name_num (i : Nat) : Name (numStr i) := by
  have hne : numStr i ≠ [] := Nat.toDigits_ne_nil
  have hd : ∀ c ∈ numStr i, c.isDigit := fun c hc => Nat.isDigit_of_mem_toDigits (by omega) (by omega) hc
  have hnot : ∀ l : Str, (∃ c ∈ l, c.isDigit = false) → numStr i ≠ l := by
    rintro l ⟨c, hc, h1⟩ rfl
    rw [hd c hc] at h1
    cases h1
  refine ⟨hne, ?_, hnot _ ⟨'ε', by simp, by decide⟩, hnot _ ⟨'e', by simp, by decide⟩, hnot _ ⟨'→', by simp, by decide⟩,
    hnot _ ⟨'-', by simp, by decide⟩, hnot _ ⟨'*', by simp, by decide⟩⟩
  intro c hc
  have h := hd c hc
  simp only [Char.isDigit, ge_iff_le, Bool.and_eq_true, decide_eq_true_eq] at h
  have h1 : 48 ≤ c.toNat := h.1
  have h2 : c.toNat ≤ 57 := h.2
  refine ⟨?_, ?_, ?_, ?_⟩
  · unfold isWhitespace
    simp
    omega
  · rintro rfl; revert h1; decide
  · rintro rfl; revert h2; decide
  · rintro rfl; revert h2; decide

theorem name_pair {a b : Str} (ha : ∀ c ∈ a, endsName c = false) (hb : ∀ c ∈ b, endsName c = false) :
    Name (Dfa.pairName a b) := by
  rw [name_iff]
  refine ⟨by simp [Dfa.pairName], ?_, ?_⟩
  · intro c hc
    simp only [Dfa.pairName, List.mem_cons, List.mem_append, List.not_mem_nil, or_false] at hc
    rcases hc with rfl | hc | rfl | hc | rfl
    · decide
    · exact ha c hc
    · decide
    · exact hb c hc
    · decide
  · simp [Dfa.pairName, reserved]

theorem name_closed : NameClosed Name where
  num := name_num
  new := by rw [name_iff]; decide
  pair := by
    have h : ∀ a, Name a ∨ a = Nfa.noneName → ∀ c ∈ a, endsName c = false := by
      rintro a (h | rfl)
      · exact (name_iff.1 h).2.1
      · decide
    intro a b ha hb
    exact name_pair (h a ha) (h b hb)

theorem true_closed : NameClosed (fun _ => True) := ⟨fun _ => trivial, trivial, fun _ _ _ _ => trivial⟩

end Dandy
