import Verif.Props.Apart
import Verif.Props.Finite
import Verif.Props.Sizes
import Verif.Props.NfaProduct
import Verif.Props.NfaEps
import Verif.Props.Compose
import Mathlib.Data.Fintype.Pigeonhole
import Mathlib.Data.Fintype.Prod
/-! # C122: inclusion, disjointness and universality, decided with the operations there are -/

namespace Dandy
open Samples RegexParser RegexTree

/-- A shortest common word passes through different pairs of states. -/
private theorem common_short {n o : Nfa} (hn : n.WF) (ho : o.WF) : ∀ (k : Nat) (w : Word), w.length = k → n.Lang w → o.Lang w →
    ∃ v : Word, v.length < n.states.length * o.states.length ∧ n.Lang v ∧ o.Lang v := by
  intro k
  induction k using Nat.strong_induction_on with
  | _ k ih =>
    intro w hk h1 h2
    by_cases hlt : w.length < n.states.length * o.states.length
    · exact ⟨w, hlt, h1, h2⟩
    · obtain ⟨q, hq, hqa⟩ := h1
      obtain ⟨r, hr, hra⟩ := h2
      have hx : ∀ i : Fin (w.length + 1), ∃ p : Fin n.states.length × Fin o.states.length,
          (n.Path n.initialState (w.take i) p.1 ∧ n.Path p.1 (w.drop i) q) ∧
          o.Path o.initialState (w.take i) p.2 ∧ o.Path p.2 (w.drop i) r := by
        intro i
        rw [← List.take_append_drop i w] at hq hr
        obtain ⟨a, a1, a2⟩ := Nfa.path_append.1 hq
        obtain ⟨b, b1, b2⟩ := Nfa.path_append.1 hr
        exact ⟨⟨⟨a, Nfa.path_lt hn hn.init_lt a1⟩, ⟨b, Nfa.path_lt ho ho.init_lt b1⟩⟩, ⟨a1, a2⟩, b1, b2⟩
      choose f hf using hx
      obtain ⟨i, j, hne, hij⟩ := Fintype.exists_ne_map_eq_of_card_lt f (by simp; omega)
      have cut : ∀ i j : Fin (w.length + 1), i < j → f i = f j →
          ∃ v : Word, v.length < n.states.length * o.states.length ∧ n.Lang v ∧ o.Lang v := by
        intro i j hlt hij
        have hlen : (w.take i ++ w.drop j).length < k := by
          have := j.isLt
          have : (i : Nat) < j := hlt
          simp only [List.length_append, List.length_take, List.length_drop]
          omega
        refine ih _ hlen _ rfl ⟨q, Nfa.path_append.2 ⟨_, (hf i).1.1, ?_⟩, hqa⟩ ⟨r, Nfa.path_append.2 ⟨_, (hf i).2.1, ?_⟩, hra⟩
        · rw [hij]; exact (hf j).1.2
        · rw [hij]; exact (hf j).2.2
      rcases lt_or_gt_of_ne hne with h | h
      · exact cut i j h hij
      · exact cut j i h hij.symm

private theorem not_iff_eq {b : Bool} {p : Prop} (h : b = true ↔ p) : b = false ↔ ¬ p := by
  rw [← h]; simp

/-- **C122** Is everything that one DFA accepts accepted by another? The difference says it (has it a reachable accepting state?), the union says it
(is it equivalent to the other?), and so do finitely many tests, with all words that are shorter than the product of the numbers of states. -/
theorem C122_dfa_included (ord : List (Nat × Nat) → List (Nat × Nat)) (hord : ∀ l, (ord l).Perm l) (d o : Dfa) (hd : d.WF) (ho : o.WF)
    (hs : SameElems d.alphabet o.alphabet) :
    ∃ p u b c, Dfa.difference ord d o = some (some p) ∧ p.hasReachableAcceptingState = some b ∧
      Dfa.union ord d o = some (some u) ∧ u.equivalentTo o = some c ∧
      (b = false ↔ ∀ w, d.accepts w = true → o.accepts w = true) ∧
      (c = true ↔ ∀ w, d.accepts w = true → o.accepts w = true) ∧
      ((∀ w, d.accepts w = true → o.accepts w = true) ↔
        ∀ w : Word, w.length < d.states.length * o.states.length → d.accepts w = true → o.accepts w = true) := by
  obtain ⟨⟨u, u1, u2, u3, u4⟩, _, ⟨p, p1, p2, p3, p4⟩, _⟩ := (C09_dfa_set_operations ord hord d o hd ho).2 hs
  obtain ⟨_, _, b, b1, b2⟩ := C12_dfa_reachability p p2
  obtain ⟨⟨c, c1⟩, c2⟩ := C11_dfa_equivalent_to u o u2 ho
  rw [c1, Option.some.injEq] at c2
  have hd' := fun w => C01_dfa_accepts_iff d hd w
  have ho' := fun w => C01_dfa_accepts_iff o ho w
  refine ⟨p, u, b, c, p1, b1, u1, c1, ?_, ?_, ?_⟩
  · rw [not_iff_eq b2]
    simp only [p4, hd', ho']
    exact ⟨fun h w hw => by_contra fun hc => h ⟨w, hw, hc⟩, fun h ⟨w, h1, h2⟩ => h2 (h w h1)⟩
  · rw [c2, u3]
    simp only [u4, hd', ho']
    exact ⟨fun h w hw => (h.2 w).1 (.inl hw), fun h => ⟨hs, fun w => ⟨fun hw => hw.elim (h w) id, .inr⟩⟩⟩
  · refine ⟨fun h w _ => h w, fun h w hw => ?_⟩
    by_contra hc
    have hi := C07_invert_complement o ho
    have hover : ∀ w, d.Lang w → Over o.alphabet w := fun w hw e he => (hs e).1 (Dfa.over_of_lang hd hw e he)
    rw [hd'] at hw
    rw [ho'] at hc
    have hl1 := fun w => (C18_to_nfa_lang d hd w).2.1
    have hl2 := fun w => (C18_to_nfa_lang o.invert (hi []).1 w).2.1
    obtain ⟨v, v1, v2, v3⟩ := common_short (C18_to_nfa_lang d hd []).1 (C18_to_nfa_lang o.invert (hi []).1 []).1 _ w rfl
      ((hl1 w).2 hw) ((hl2 w).2 ((hi w).2.1.2 ⟨hover w hw, hc⟩))
    have n1 : d.toNfa.states.length = d.states.length := by simp [Dfa.toNfa]
    have n2 : o.invert.toNfa.states.length = o.states.length := by simp [Dfa.toNfa, Dfa.invert]
    rw [n1, n2] at v1
    have := h v v1 ((hd' v).2 ((hl1 v).1 v2))
    exact ((hi v).2.1.1 ((hl2 v).1 v3)).2 ((ho' v).1 this)

/-- What `oddA` and `endsB` have in common is accepted by `endsB`; not everything that `oddA` accepts ends in `b`. -/
example : SameElems oddA.alphabet endsB.alphabet ∧
    ((Dfa.intersection id oddA endsB).bind fun i => i.bind fun i => (Dfa.difference List.reverse i endsB).bind fun p =>
      p.bind Dfa.hasReachableAcceptingState) = some false ∧
    ((Dfa.difference List.reverse oddA endsB).bind fun p => p.bind Dfa.hasReachableAcceptingState) = some true := by
  refine ⟨fun e => ?_, by decide +kernel, by decide +kernel⟩
  simp [oddA, endsB, or_comm]

/-- **C122** Have two DFAs a word in common? The intersection says it, and the words shorter than the product of the numbers of states do. -/
theorem C122_dfa_disjoint (ord : List (Nat × Nat) → List (Nat × Nat)) (hord : ∀ l, (ord l).Perm l) (d o : Dfa) (hd : d.WF) (ho : o.WF)
    (hs : SameElems d.alphabet o.alphabet) :
    ∃ p b, Dfa.intersection ord d o = some (some p) ∧ p.hasReachableAcceptingState = some b ∧
      (b = true ↔ ∃ w, d.accepts w = true ∧ o.accepts w = true) ∧
      ((∃ w, d.accepts w = true ∧ o.accepts w = true) ↔
        ∃ w : Word, w.length < d.states.length * o.states.length ∧ d.accepts w = true ∧ o.accepts w = true) := by
  obtain ⟨_, ⟨p, p1, p2, p3, p4⟩, _⟩ := (C09_dfa_set_operations ord hord d o hd ho).2 hs
  obtain ⟨_, _, b, b1, b2⟩ := C12_dfa_reachability p p2
  have hd' := fun w => C01_dfa_accepts_iff d hd w
  have ho' := fun w => C01_dfa_accepts_iff o ho w
  refine ⟨p, b, p1, b1, ?_, ?_⟩
  · rw [b2]; simp only [p4, hd', ho']
  · refine ⟨?_, fun ⟨w, _, h⟩ => ⟨w, h⟩⟩
    rintro ⟨w, h1, h2⟩
    have hl1 := fun w => (C18_to_nfa_lang d hd w).2.1
    have hl2 := fun w => (C18_to_nfa_lang o ho w).2.1
    obtain ⟨v, v1, v2, v3⟩ := common_short (C18_to_nfa_lang d hd []).1 (C18_to_nfa_lang o ho []).1 _ w rfl
      ((hl1 w).2 ((hd' w).1 h1)) ((hl2 w).2 ((ho' w).1 h2))
    have n1 : d.toNfa.states.length = d.states.length := by simp [Dfa.toNfa]
    have n2 : o.toNfa.states.length = o.states.length := by simp [Dfa.toNfa]
    rw [n1, n2] at v1
    exact ⟨v, v1, (hd' v).2 ((hl1 v).1 v2), (ho' v).2 ((hl2 v).1 v3)⟩

example : ((Dfa.intersection id oddA oddA.invert).bind fun p => p.bind Dfa.hasReachableAcceptingState) = some false ∧
    ((Dfa.intersection id oddA endsB).bind fun p => p.bind Dfa.hasReachableAcceptingState) = some true := by decide +kernel

/-- **C122** Does a DFA accept every word over its alphabet? Its inverse says it, and the words shorter than the number of states do. -/
theorem C122_dfa_universal (d : Dfa) (hd : d.WF) :
    ∃ b, d.invert.hasReachableAcceptingState = some b ∧ (b = false ↔ ∀ w, Over d.alphabet w → d.accepts w = true) ∧
      ((∀ w, Over d.alphabet w → d.accepts w = true) ↔
        ∀ w : Word, w.length < d.states.length → Over d.alphabet w → d.accepts w = true) := by
  have hi := C07_invert_complement d hd
  obtain ⟨_, _, b, b1, b2⟩ := C12_dfa_reachability d.invert (hi []).1
  have hd' := fun w => C01_dfa_accepts_iff d hd w
  refine ⟨b, b1, ?_, fun h w _ => h w, fun h w hw => ?_⟩
  · rw [not_iff_eq b2]
    simp only [fun w => (hi w).2.1, hd']
    exact ⟨fun h w hw => by_contra fun hc => h ⟨w, hw, hc⟩, fun h ⟨w, h1, h2⟩ => h2 (h w h1)⟩
  · by_contra hc
    rw [hd'] at hc
    obtain ⟨v, v1, v2⟩ := (C84_dfa_finite_iff_short d.invert (hi []).1).2.2.1 ⟨w, (hi w).2.1.2 ⟨hw, hc⟩⟩
    have n2 : d.invert.states.length = d.states.length := by simp [Dfa.invert]
    rw [n2] at v2
    exact ((hi v).2.1.1 v1).2 ((hd' v).1 (h v v2 ((hi v).2.1.1 v1).1))

example : overC.invert.hasReachableAcceptingState = some false ∧ oddA.invert.hasReachableAcceptingState = some true ∧
    (∀ w, Over overC.alphabet w → overC.accepts w = true) := by
  have h : overC.invert.hasReachableAcceptingState = some false := by decide
  refine ⟨h, by decide, ?_⟩
  obtain ⟨b, b1, b2, _⟩ := C122_dfa_universal overC overC_wf
  exact b2.1 (by rw [h] at b1; cases b1; rfl)

/-- **C122** The same for NFAs: inclusion by union and `equivalent_to`; a common word by the intersection, or among the words shorter than the
product of the numbers of states. -/
theorem C122_nfa (ord : List Nfa.OPair → List Nfa.OPair) (hord : ∀ l, (ord l).Perm l) (n o : Nfa) (hn : n.WF) (ho : o.WF)
    (hs : SameElems n.alphabet o.alphabet) :
    ∃ p u b c, n.union o = some (.ok u) ∧ u.equivalentTo o = some c ∧ Nfa.intersection ord n o = some (some p) ∧
      p.hasReachableAcceptingState = some b ∧
      (c = true ↔ ∀ w, n.accepts w = true → o.accepts w = true) ∧
      (b = true ↔ ∃ w, n.accepts w = true ∧ o.accepts w = true) ∧
      ((∃ w, n.accepts w = true ∧ o.accepts w = true) ↔
        ∃ w : Word, w.length < n.states.length * o.states.length ∧ n.accepts w = true ∧ o.accepts w = true) := by
  obtain ⟨u, u1⟩ := (C21_union_err n o hn ho).2 hs
  obtain ⟨u2, u3, u4, _⟩ := C21_union_lang n o u hn ho u1
  obtain ⟨c, c1, c2⟩ := C20_nfa_equivalent_to u o u2 ho
  obtain ⟨⟨r, hr⟩, hr'⟩ := C22_intersection_none_iff ord hord n o hn ho
  cases r with
  | none => exact absurd hs (hr'.1 hr)
  | some p =>
    obtain ⟨p2, p3, p4, _⟩ := C22_intersection_lang ord hord n o p hn ho hr
    obtain ⟨_, _, b, b1, b2⟩ := C27_nfa_reachability p p2
    have hn' := fun w => C02_nfa_accepts_iff n hn w
    have ho' := fun w => C02_nfa_accepts_iff o ho w
    refine ⟨p, u, b, c, u1, c1, hr, b1, ?_, ?_, ?_⟩
    · rw [c2, u3]
      simp only [u4, hn', ho']
      exact ⟨fun h w hw => (h.2 w).1 (.inl hw), fun h => ⟨hs, fun w => ⟨fun hw => hw.elim (h w) id, .inr⟩⟩⟩
    · rw [b2]; simp only [p4, hn', ho']
    · simp only [hn', ho']
      exact ⟨fun ⟨w, h1, h2⟩ => common_short hn ho _ w rfl h1 h2, fun ⟨w, _, h⟩ => ⟨w, h⟩⟩

/-- What `epsNfa` and `evenA` have in common is accepted by `evenA`; `evenA` does not accept everything that `epsNfa` does. -/
example : ∃ p u v, Nfa.intersection id epsNfa evenA = some (some p) ∧ p.union evenA = some (.ok u) ∧ u.equivalentTo evenA = some true ∧
    epsNfa.union evenA = some (.ok v) ∧ v.equivalentTo evenA = some false ∧ p.hasReachableAcceptingState = some true := by
  refine ⟨_, _, _, rfl, rfl, ?_, rfl, ?_, ?_⟩ <;> decide +kernel

/-- **C122** Does an NFA accept every word over its alphabet? The inverse of its DFA says it, and the words with fewer than `2 ^ n` elements do. -/
theorem C122_nfa_universal (n : Nfa) (hn : n.WF) :
    ∃ d b, n.toDfa = some d ∧ d.invert.hasReachableAcceptingState = some b ∧
      (b = false ↔ ∀ w, Over n.alphabet w → n.accepts w = true) ∧
      ((∀ w, Over n.alphabet w → n.accepts w = true) ↔
        ∀ w : Word, w.length < 2 ^ n.states.length → Over n.alphabet w → n.accepts w = true) := by
  obtain ⟨d, h1, h2, h3, h4, h5⟩ := C19_to_dfa n hn
  obtain ⟨b, b1, b2, b3⟩ := C122_dfa_universal d h2
  rw [h3] at b2 b3
  simp only [h5] at b2 b3
  have hl := (C19_to_dfa_shape n hn d h1).2.2.2
  refine ⟨d, b, h1, b1, b2, fun h w _ => h w, fun h => b3.2 fun w hw => h w (by omega)⟩

example : (nfaC.toDfa.bind fun d => d.invert.hasReachableAcceptingState) = some false ∧
    (epsNfa.toDfa.bind fun d => d.invert.hasReachableAcceptingState) = some true ∧ epsNfa.accepts [s 'b', s 'a'] = false := by decide +kernel

/-- **C122** The bounds cannot be improved: for `n` and `m` without common divisor there are DFAs with `n` and `m` states over one element whose
shortest common word has `n * m - 1` elements. -/
theorem C122_optimal (n m : Nat) (hn : 0 < n) (hm : 0 < m) (hnm : Nat.Coprime n m) : ∃ d o : Dfa, d.WF ∧ o.WF ∧ d.alphabet = o.alphabet ∧
    d.states.length = n ∧ o.states.length = m ∧ (∃ w : Word, w.length + 1 = n * m ∧ d.accepts w = true ∧ o.accepts w = true) ∧
    (∀ w : Word, w.length + 1 < n * m → d.accepts w = true → o.accepts w = false) ∧
    (∀ w : Word, w.length + 1 < n * m → d.accepts w = true → o.invert.accepts w = true) ∧
    ¬ ∀ w : Word, d.accepts w = true → o.invert.accepts w = true := by
  have hwf : ∀ n, 0 < n → (lasso n 0 (fun i => decide (i + 1 = n))).WF := fun n h => lasso_wf h
  have hrun : ∀ n, 0 < n → ∀ k, (lasso n 0 (fun i => decide (i + 1 = n))).runE 0 (List.replicate k (s 'a')) = some (k % n) := by
    intro n hn k
    induction k using Nat.strong_induction_on with
    | _ k ih =>
      by_cases hk : k < n
      · rw [Nat.mod_eq_of_lt hk, lasso_tail k 0 (by omega), Nat.zero_add]
      · obtain ⟨j, rfl⟩ : ∃ j, k = n + j := ⟨k - n, by omega⟩
        rw [lasso_round hn, Nat.add_mod_left, ih j (by omega)]
  have hacc : ∀ n, 0 < n → ∀ k, (lasso n 0 (fun i => decide (i + 1 = n))).accepts (List.replicate k (s 'a')) = decide (n ∣ k + 1) := by
    intro n hn k
    rw [lasso_lang hn k _ (hrun n hn k), decide_eq_decide]
    have h1 := Nat.mod_lt k hn
    have h2 := Nat.div_add_mod k n
    constructor
    · intro h
      exact ⟨k / n + 1, by rw [Nat.mul_add]; omega⟩
    · rintro ⟨c, hc⟩
      have h3 : k / n < c := by
        by_contra hle
        have := Nat.mul_le_mul_left n (Nat.le_of_not_lt hle)
        omega
      have h4 := Nat.mul_le_mul_left n (Nat.succ_le_of_lt h3)
      rw [Nat.succ_eq_add_one, Nat.mul_add] at h4
      omega
  have hword : ∀ n, 0 < n → ∀ w, (lasso n 0 (fun i => decide (i + 1 = n))).accepts w = true → w = List.replicate w.length (s 'a') := by
    intro n hn w hw
    have := Dfa.over_of_lang (hwf n hn) ((C01_dfa_accepts_iff _ (hwf n hn) w).1 hw)
    exact List.eq_replicate_iff.2 ⟨rfl, fun e he => by simpa [lasso] using this e he⟩
  have hno : ∀ w : Word, w.length + 1 < n * m → (lasso n 0 (fun i => decide (i + 1 = n))).accepts w = true →
      (lasso m 0 (fun i => decide (i + 1 = m))).accepts w = false := by
    intro w hlt hw
    by_contra hc
    rw [Bool.not_eq_false] at hc
    rw [hword n hn w hw, hacc n hn, decide_eq_true_eq] at hw
    rw [hword m hm w hc, hacc m hm, decide_eq_true_eq] at hc
    have := Nat.le_of_dvd (by omega) (hnm.mul_dvd_of_dvd_of_dvd hw hc)
    omega
  have hpos : 0 < n * m := Nat.mul_pos hn hm
  have hyes : (lasso n 0 (fun i => decide (i + 1 = n))).accepts (List.replicate (n * m - 1) (s 'a')) = true ∧
      (lasso m 0 (fun i => decide (i + 1 = m))).accepts (List.replicate (n * m - 1) (s 'a')) = true := by
    rw [hacc n hn, hacc m hm, decide_eq_true_eq, decide_eq_true_eq, Nat.sub_add_cancel hpos]
    exact ⟨⟨m, rfl⟩, ⟨n, Nat.mul_comm _ _⟩⟩
  have hinv := C07_invert_complement _ (hwf m hm)
  refine ⟨_, _, hwf n hn, hwf m hm, rfl, by simp [lasso], by simp [lasso], ⟨_, ?_, hyes⟩, hno, ?_, ?_⟩
  · rw [List.length_replicate]; omega
  · intro w hlt hw
    exact (hinv w).2.2.2 ⟨Dfa.over_of_lang (hwf n hn) ((C01_dfa_accepts_iff _ (hwf n hn) w).1 hw), hno w hlt hw⟩
  · intro h
    have := ((hinv _).2.2.1 (h _ hyes.1)).2
    rw [hyes.2] at this
    cases this

example : Nat.Coprime 3 4 ∧ (lasso 3 0 (fun i => decide (i + 1 = 3))).accepts (List.replicate 11 (s 'a')) = true ∧
    (lasso 4 0 (fun i => decide (i + 1 = 4))).accepts (List.replicate 11 (s 'a')) = true := by decide +kernel

/-- **C122** The same for expressions, by putting texts together: `((t)|(u))` is equivalent to `u` exactly if everything that `t` matches is
matched by `u` and no element occurs in `t` only. -/
theorem C122_regex (cl : Str → Nat) (h : Segmentation cl) (t u : Str) (ht : Trimmed t t) (hu : Trimmed u u) (et : Ends cl ')' t) (eu : Ends cl ')' u)
    (a b : RegexTree) (ha : regex cl t = some a) (hb : regex cl u = some b) :
    ∃ e c, regex cl (c!"((" ++ t ++ c!")|(" ++ u ++ c!"))") = some e ∧ (toNfa e).equivalentTo (toNfa b) = some c ∧
      (c = true ↔ (∀ w, (toNfa a).accepts w = true → (toNfa b).accepts w = true) ∧ ∀ g ∈ a.graphemes, g ∈ b.graphemes) := by
  obtain ⟨e, e1, e2, e3⟩ := C115_compose cl h (.alt (.text t) (.text u)) (by
    simp only [Shape.parts, List.cons_append, List.nil_append, List.mem_cons, List.not_mem_nil, or_false]
    rintro x (rfl | rfl)
    · exact ⟨ht, et, _, ha⟩
    · exact ⟨hu, eu, _, hb⟩)
  obtain ⟨c, c1, c2⟩ := C20_nfa_equivalent_to (toNfa e) (toNfa b) (C35_to_nfa_valid e) (C35_to_nfa_valid b)
  have hw : (Shape.alt (.text t) (.text u)).write = c!"((" ++ t ++ c!")|(" ++ u ++ c!"))" := by simp [Shape.write]
  have he : ∀ w, (toNfa e).accepts w = true ↔ (toNfa a).accepts w = true ∨ (toNfa b).accepts w = true := by
    intro w
    rw [e2]
    change w ∈ textLang cl t + textLang cl u ↔ _
    rw [Language.mem_add]
    unfold textLang
    simp only [ha, hb, Option.some.injEq, exists_eq_left']
    rfl
  have hg : ∀ g, g ∈ (toNfa e).alphabet ↔ g ∈ a.graphemes ∨ g ∈ b.graphemes := by
    intro g
    rw [e3]
    simp [Shape.parts, ha, hb, (C35_to_nfa_alphabet a).1, (C35_to_nfa_alphabet b).1]
  refine ⟨e, c, hw ▸ e1, c1, ?_⟩
  rw [c2]
  simp only [← C02_nfa_accepts_iff _ (C35_to_nfa_valid e), ← C02_nfa_accepts_iff _ (C35_to_nfa_valid b), he, SameElems, hg,
    (C35_to_nfa_alphabet b).1]
  constructor
  · rintro ⟨h1, h2⟩
    exact ⟨fun w hw => (h2 w).1 (.inl hw), fun g hg => (h1 g).1 (.inl hg)⟩
  · rintro ⟨h1, h2⟩
    exact ⟨fun g => ⟨fun hx => hx.elim (h2 g) id, .inr⟩, fun w => ⟨fun hx => hx.elim (h1 w) id, .inr⟩⟩

/-- `ab*` is included in `(a|b)*`, but not the other way round. -/
example : Trimmed c!"(a|b)*" c!"(a|b)*" ∧ (∀ e ∈ c!"ab*(a|b)*", e.toNat < 128 ∧ e ≠ '\r') ∧
    ((regex cl1 c!"((ab*)|((a|b)*))").bind fun e => (regex cl1 c!"(a|b)*").bind fun b => (toNfa e).equivalentTo (toNfa b)) = some true ∧
    ((regex cl1 c!"(((a|b)*)|(ab*))").bind fun e => (regex cl1 c!"ab*").bind fun b => (toNfa e).equivalentTo (toNfa b)) = some false :=
  ⟨⟨[], [], by simp, by simp, by simp, by intro c hc; cases hc; decide, by intro c hc; cases hc; decide⟩, by decide, by decide +kernel, by decide +kernel⟩

end Dandy
