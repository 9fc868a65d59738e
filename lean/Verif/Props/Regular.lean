import Verif.Proofs.Regular
import Verif.Proofs.History
import Verif.Props.Regex
import Verif.Props.RegexParser
import Verif.Props.NfaToDfa
import Verif.Props.Tables
import Verif.Props.History
/-! # C111: exactly the regular languages -/

namespace Dandy
open Samples RegexParser RegexTree TableText

/-- **C111** DFA files with the elements `A` describe exactly the regular languages over `A` (in the sense of Mathlib). -/
theorem C111_dfa (A : List Str) (hnd : A.Nodup) (hne : A ≠ []) (hA : ∀ e ∈ A, Name e) (L : Language Str) :
    (L.IsRegular ∧ ∀ w ∈ L, Over A w) ↔
      ∃ text p d, Fa.dfa text = some p ∧ Validate.dfa p = .ok d ∧ d.alphabet = A ∧ ∀ w, d.accepts w = true ↔ w ∈ L := by
  constructor
  · rintro ⟨hr, ho⟩
    obtain ⟨n, M, rfl⟩ := regular_fin hr
    have hw := tableOf_wf hnd M
    obtain ⟨text, p, _, h1, h2⟩ := (C40_roundtrip (tableOf A M) hw hne hA (fun s hs => by
      obtain ⟨i, h, _⟩ := tableOf_mem hs
      rw [h]; exact name_num i.val)).1
    refine ⟨text, p, _, h1, h2, rfl, fun w => ?_⟩
    rw [C01_dfa_accepts_iff _ hw, tableOf_lang]
    exact ⟨fun h => h.1, fun h => ⟨h, ho w h⟩⟩
  · rintro ⟨text, p, d, h1, h2, rfl, h3⟩
    have hw := (C40_parsed text p d h1 h2).1
    have he : ({w | d.Lang w} : Language Str) = L := by
      ext w; exact (C01_dfa_accepts_iff _ hw w).symm.trans (h3 w)
    refine ⟨he ▸ Dfa.regular hw, fun w hl => ?_⟩
    rw [← h3, C01_dfa_accepts_iff _ hw] at hl
    obtain ⟨q, hq, _⟩ := hl
    exact Dfa.run_over hq

/-- The words with as many `a` as then `b`; a language which is not regular. -/
def balanced : Language Str := {w | ∃ n, w = List.replicate n (s 'a') ++ List.replicate n (s 'b')}

theorem balanced_not_regular : ¬ balanced.IsRegular := by
  intro h
  have hinj : Function.Injective (fun n : Nat => balanced.leftQuotient (List.replicate n (s 'a'))) := by
    intro n m hnm
    have h1 : List.replicate n (s 'b') ∈ balanced.leftQuotient (List.replicate m (s 'a')) := by
      have : List.replicate n (s 'b') ∈ balanced.leftQuotient (List.replicate n (s 'a')) := ⟨n, rfl⟩
      rw [show balanced.leftQuotient (List.replicate n (s 'a')) = _ from hnm] at this
      exact this
    obtain ⟨k, hk⟩ := h1
    have ha := congrArg (List.count (s 'a')) hk
    have hb := congrArg (List.count (s 'b')) hk
    have e : ¬ s 'a' = s 'b' := by decide
    have e' : ¬ s 'b' = s 'a' := by decide
    simp [List.count_replicate, e, e'] at ha hb
    omega
  refine Set.infinite_range_of_injective hinj (h.finite_range_leftQuotient.subset ?_)
  rintro _ ⟨n, rfl⟩
  exact ⟨_, rfl⟩

theorem ab_names : ∀ e ∈ [s 'a', s 'b'], Name e := by
  intro e he
  rw [name_iff]
  revert e
  decide

/-- There is a file for the words ending with `b`, and with the elements in this order, but none for as many `a` as then `b`. -/
example : (∃ text p d, Fa.dfa text = some p ∧ Validate.dfa p = .ok d ∧ d.alphabet = [s 'a', s 'b'] ∧ ∀ w, d.accepts w = true ↔ endsB.Lang w) ∧
    ¬ ∃ text p d, Fa.dfa text = some p ∧ Validate.dfa p = .ok d ∧ d.alphabet = [s 'a', s 'b'] ∧
      ∀ w, d.accepts w = true ↔ w ∈ balanced := by
  refine ⟨(C111_dfa _ (by decide) (by decide) ab_names ({w | endsB.Lang w} : Language Str)).1 ⟨Dfa.regular endsB_wf, ?_⟩, ?_⟩
  · rintro w ⟨q, hq, _⟩ e he
    have := Dfa.run_over hq e he
    simpa [endsB, or_comm] using this
  · intro h
    exact balanced_not_regular ((C111_dfa _ (by decide) (by decide) ab_names _).2 h).1

/-- **C111** The same for NFA files; here `A` can also be empty. -/
theorem C111_nfa (A : List Str) (hnd : A.Nodup) (hA : ∀ e ∈ A, Name e) (L : Language Str) :
    (L.IsRegular ∧ ∀ w ∈ L, Over A w) ↔
      ∃ text p n, Fa.nfa text = some p ∧ Validate.nfa p = .ok n ∧ n.alphabet = A ∧ ∀ w, n.accepts w = true ↔ w ∈ L := by
  constructor
  · rintro ⟨hr, ho⟩
    obtain ⟨n, M, rfl⟩ := regular_fin hr
    have hw := tableOf_wf hnd M
    obtain ⟨_, e2, _, _, _⟩ := C18_to_nfa_structure (tableOf A M)
    have hw' := (C18_to_nfa_lang (tableOf A M) hw []).1
    obtain ⟨text, p, _, h1, h2⟩ := (C41_roundtrip (tableOf A M).toNfa hw' (by rw [e2]; exact hA) (fun s hs => by
      obtain ⟨u, hu, rfl⟩ := List.mem_map.1 hs
      obtain ⟨i, h, _⟩ := tableOf_mem hu
      change Name u.name
      rw [h]; exact name_num i.val)).1
    refine ⟨text, p, _, h1, h2, e2, fun w => ?_⟩
    rw [(C18_to_nfa_lang (tableOf A M) hw w).2.2, C01_dfa_accepts_iff _ hw, tableOf_lang]
    exact ⟨fun h => h.1, fun h => ⟨h, ho w h⟩⟩
  · rintro ⟨text, p, n, h1, h2, rfl, h3⟩
    have hn := (C41_parsed text p n h1 h2).1
    obtain ⟨d, _, hw, ha, hl, _⟩ := C19_to_dfa n hn
    have he : ({w | d.Lang w} : Language Str) = L := by
      ext w; exact (hl w).trans ((C02_nfa_accepts_iff _ hn w).symm.trans (h3 w))
    refine ⟨he ▸ Dfa.regular hw, fun w hm => ?_⟩
    rw [← he] at hm
    obtain ⟨q, hq, _⟩ := hm
    rw [← ha]; exact Dfa.run_over hq

example : (∃ text p n, Fa.nfa text = some p ∧ Validate.nfa p = .ok n ∧ n.alphabet = [s 'a', s 'b'] ∧ ∀ w, n.accepts w = true ↔ endsB.Lang w) ∧
    (∃ text p n, Fa.nfa text = some p ∧ Validate.nfa p = .ok n ∧ n.alphabet = [] ∧ ∀ w, n.accepts w = true ↔ w ∈ (1 : Language Str)) ∧
    ¬ ∃ text p n, Fa.nfa text = some p ∧ Validate.nfa p = .ok n ∧ n.alphabet = [s 'a', s 'b'] ∧
      ∀ w, n.accepts w = true ↔ w ∈ balanced := by
  refine ⟨(C111_nfa _ (by decide) ab_names ({w | endsB.Lang w} : Language Str)).1 ⟨Dfa.regular endsB_wf, ?_⟩,
    (C111_nfa [] (by decide) (by simp) 1).1 ⟨?_, ?_⟩, ?_⟩
  · rintro w ⟨q, hq, _⟩ e he
    have := Dfa.run_over hq e he
    simpa [endsB, or_comm] using this
  · have hw : (⟨[], [⟨s 'x', true, true, []⟩], 0⟩ : Dfa).WF := Dfa.wf_of_wfB (by decide)
    have : Eq (α := Language Str) {w | (⟨[], [⟨s 'x', true, true, []⟩], 0⟩ : Dfa).Lang w} 1 := by
      ext w
      constructor
      · rintro ⟨q, hq, _⟩
        have := Dfa.run_over hq
        cases w with
        | nil => exact Language.nil_mem_one
        | cons e w => exact absurd (this e (by simp)) (by simp)
      · intro h
        obtain rfl : w = [] := h
        exact ⟨0, .nil 0, _, rfl, rfl⟩
    exact this ▸ Dfa.regular hw
  · intro w h
    cases h
    simp [Over]
  · intro h
    exact balanced_not_regular ((C111_nfa _ (by decide) ab_names _).2 h).1

/-- The text printed for a tree in parentheses. -/
theorem tree_text (cl : Str → Nat) (h : Segmentation cl) (A : List Str)
    (hshape : ∀ g ∈ A, (∃ c g', g = c :: g' ∧ ¬ IsReserved c) ∨ (∃ c, g = [c] ∧ IsReserved c ∧ c.toNat < 128))
    (hcluster : ∀ g ∈ A, ∀ r, (r = [] ∨ (∃ c r', r = c :: r' ∧ IsReserved c) ∨ ∃ g' ∈ A, g' <+: r) → cl (g ++ r) = g.length)
    (t0 : RegexTree) (g1 : Proper t0) (g2 : ∀ g ∈ t0.graphemes, g ∈ A) :
    ∃ u t, regex cl (['('] ++ u ++ [')']) = some t ∧ (∀ g ∈ t.graphemes, g ∈ A) ∧ ∀ w, (toNfa t).accepts w = true ↔ w ∈ t0.denote := by
  have p1 : Proper (.alt [t0]) := by simp [Proper, ProperList, g1]
  have p2 : ∀ g ∈ (RegexTree.alt [t0]).graphemes, g ∈ A := by simpa [graphemes, graphemesList] using g2
  have p3 : (RegexTree.alt [t0]).denote = t0.denote := by simp [denote, denoteAlt]
  have h1 := (print_tree (cl := cl) (G := A) ⟨hshape, hcluster⟩ (.alt [t0]) p1 p2 [] (Or.inl rfl)).1
  rw [List.append_nil] at h1
  obtain ⟨t', h2, h3, h4⟩ := expression_complete h (ExprL.one h1) (Nat.lt_succ_self _)
  have e : toText (.alt [t0]) = ['('] ++ altText [t0] ++ [')'] := by simp [toText]
  have hws : Trimmed (toText (.alt [t0])) (toText (.alt [t0])) := by
    refine ⟨[], [], by simp, by simp, by simp, ?_, ?_⟩
    · intro c hc
      simp [toText] at hc
      subst hc
      unfold WhiteSpace; decide
    · intro c hc
      rw [e, List.getLast?_concat] at hc
      simp at hc
      subst hc
      unfold WhiteSpace; decide
  refine ⟨altText [t0], t', by rw [← e]; exact (regex_some hws).2 h2, by rw [h4]; exact p2, fun w => ?_⟩
  rw [C34_to_nfa_accepts, matches_denote, h3, p3]

/-- **C111** The same for expressions with graphemes from `A`, whatever the rules for clusters are, if the members of `A` are clusters
wherever they are written: a regular language over `A` has an expression, and expressions have regular languages. -/
theorem C111_regex (cl : Str → Nat) (h : Segmentation cl) (A : List Str)
    (hshape : ∀ g ∈ A, (∃ c g', g = c :: g' ∧ ¬ IsReserved c) ∨ (∃ c, g = [c] ∧ IsReserved c ∧ c.toNat < 128))
    (hcluster : ∀ g ∈ A, ∀ r, (r = [] ∨ (∃ c r', r = c :: r' ∧ IsReserved c) ∨ ∃ g' ∈ A, g' <+: r) → cl (g ++ r) = g.length)
    (L : Language Str) :
    (L.IsRegular ∧ ∀ w ∈ L, Over A w) ↔
      ∃ text t, regex cl text = some t ∧ (∀ g ∈ t.graphemes, g ∈ A) ∧ ∀ w, (toNfa t).accepts w = true ↔ w ∈ L := by
  constructor
  · rintro ⟨hr, ho⟩
    obtain ⟨n, M, rfl⟩ := regular_fin hr
    obtain ⟨t0, g1, g2, g3⟩ := expressible_of_dfa (A := A) M M.start
    obtain ⟨u, t', h2, h3, h4⟩ := tree_text cl h A hshape hcluster t0 g1 g2
    refine ⟨_, t', h2, h3, fun w => ?_⟩
    rw [h4, g3]
    exact ⟨fun h => h.1, fun h => ⟨h, ho w h⟩⟩
  · rintro ⟨text, t, _, h2, h3⟩
    have hn := C35_to_nfa_valid t
    obtain ⟨d, _, hw, ha, hl, _⟩ := C19_to_dfa _ hn
    have he : ({w | d.Lang w} : Language Str) = L := by
      ext w; exact (hl w).trans ((C02_nfa_accepts_iff _ hn w).symm.trans (h3 w))
    refine ⟨he ▸ Dfa.regular hw, fun w hm e hx => ?_⟩
    rw [← he] at hm
    obtain ⟨q, hq, _⟩ := hm
    have := Dfa.run_over hq e hx
    rw [ha, (C35_to_nfa_alphabet t).1] at this
    exact h2 e this

/-- There is an expression for the words ending with `b`, but none for as many `a` as then `b`. -/
example : (∃ text t, regex cl1 text = some t ∧ (∀ g ∈ t.graphemes, g ∈ [s 'a', s 'b']) ∧ ∀ w, (toNfa t).accepts w = true ↔ endsB.Lang w) ∧
    ¬ ∃ text t, regex cl1 text = some t ∧ (∀ g ∈ t.graphemes, g ∈ [s 'a', s 'b']) ∧ ∀ w, (toNfa t).accepts w = true ↔ w ∈ balanced := by
  have h1 : ∀ g ∈ [s 'a', s 'b'], (∃ c g', g = c :: g' ∧ ¬ IsReserved c) ∨ (∃ c, g = [c] ∧ IsReserved c ∧ c.toNat < 128) := by
    intro g hg
    simp only [List.mem_cons, List.not_mem_nil, or_false] at hg
    rcases hg with rfl | rfl <;> exact Or.inl ⟨_, [], rfl, by unfold IsReserved; decide⟩
  have h2 : ∀ g ∈ [s 'a', s 'b'], ∀ r, (r = [] ∨ (∃ c r', r = c :: r' ∧ IsReserved c) ∨ ∃ g' ∈ [s 'a', s 'b'], g' <+: r) →
      cl1 (g ++ r) = g.length := by
    intro g hg r _
    simp only [List.mem_cons, List.not_mem_nil, or_false] at hg
    rcases hg with rfl | rfl <;> simp [cl1, s]
  refine ⟨(C111_regex cl1 cl1_seg _ h1 h2 ({w | endsB.Lang w} : Language Str)).1 ⟨Dfa.regular endsB_wf, ?_⟩, ?_⟩
  · rintro w ⟨q, hq, _⟩ e he
    have := Dfa.run_over hq e he
    simpa [endsB, or_comm] using this
  · intro h
    exact balanced_not_regular ((C111_regex cl1 cl1_seg _ h1 h2 _).2 h).1

/-- **C111** How many states `minimize` leaves: one for each way in which words can be continued to accepted words (left quotients). -/
theorem C111_minimal (ordU ord ordKeys : List Nat → List Nat) (hU : ∀ l, (ordU l).Perm l) (hord : ∀ l, (ord l).Perm l)
    (hK : ∀ l, (ordKeys l).Perm l) (d : Dfa) (hd : d.WF) :
    ∃ m, d.minimize ordU ord ordKeys = some m ∧
      m.states.length = ((Language.leftQuotient ({w | d.accepts w = true} : Language Str)) '' {u | Over d.alphabet u}).ncard := by
  obtain ⟨m, h1, h2, h3, h4, _⟩ := C16_minimize ordU ord ordKeys hU hord hK d hd
  obtain ⟨r1, r2⟩ := C16_minimize_reduced ordU ord ordKeys hU hord hK d m hd h1
  refine ⟨m, h1, ?_⟩
  rw [← Regular.count h2 r1 r2, h3]
  congr 2
  congr 1
  ext w
  change m.Lang w ↔ d.accepts w = true
  rw [h4, C01_dfa_accepts_iff d hd]

/-- The DFA `redundant` has more states than needed; its language has three left quotients. -/
example : ∃ m, redundant.minimize id id id = some m ∧ m.states.length < redundant.states.length ∧
    ((Language.leftQuotient ({w | redundant.accepts w = true} : Language Str)) '' {u | Over redundant.alphabet u}).ncard = m.states.length := by
  obtain ⟨m, h1, h2⟩ := C111_minimal id id id (fun l => .refl l) (fun l => .refl l) (fun l => .refl l) redundant redundant_wf
  refine ⟨m, h1, ?_, h2.symm⟩
  have : (redundant.minimize id id id).map (·.states.length) = some 3 := by decide +kernel
  rw [h1, Option.map_some, Option.some.injEq] at this
  rw [this]
  decide

end Dandy
