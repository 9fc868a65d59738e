import Verif.Props.DfaMinimize
import Verif.Props.DfaProduct
import Verif.Props.NfaToDfa
import Verif.Props.RegexParser
import Verif.Props.Validate
import Verif.Props.Tables
/-!
# C67: the examples of the documentation

The documentation describes the language of its examples in words. Here the texts of the examples are run through the model of the
parsers, and the language of the result is compared with the description, for all words.
-/

namespace Dandy
open Samples

/-! ## Languages of small automata, by stating the words accepted from every state -/

/-- If `S q` satisfies the equations of the table, it is the set of words accepted from `q`. -/
theorem Dfa.lang_of_table (d : Dfa) (S : Nat → Word → Prop) (hi : d.initialState < d.states.length)
    (hnil : ∀ q s, d.states[q]? = some s → (S q [] ↔ s.accepting = true))
    (hcons : ∀ q s, d.states[q]? = some s → ∀ e w, S q (e :: w) ↔ ∃ p ∈ d.alphabet.zip s.transitions, p.1 = e ∧ S p.2 w)
    (ht : ∀ s ∈ d.states, ∀ t ∈ s.transitions, t < d.states.length) (w : Word) : d.Lang w ↔ S d.initialState w := by
  have main : ∀ (w : Word) (q : Nat), q < d.states.length → ((∃ r, d.Run q w r ∧ d.Acc r) ↔ S q w) := by
    intro w
    induction w with
    | nil =>
      intro q hq
      have hs := List.getElem?_eq_getElem hq
      rw [hnil q _ hs]
      constructor
      · rintro ⟨r, h1, s', h2, h3⟩
        cases h1
        rw [hs] at h2
        cases h2
        exact h3
      · intro h
        exact ⟨q, .nil q, _, hs, h⟩
    | cons e w ih =>
      intro q hq
      have hs := List.getElem?_eq_getElem hq
      rw [hcons q _ hs]
      constructor
      · rintro ⟨r, h1, h2⟩
        cases h1 with
        | cons h3 h4 h5 h6 =>
          rw [hs] at h3
          cases h3
          have hlt := ht _ (List.getElem_mem hq) _ (List.mem_of_getElem? h5)
          refine ⟨(e, _), ?_, rfl, (ih _ hlt).1 ⟨r, h6, h2⟩⟩
          exact List.mem_of_getElem? (List.getElem?_zip_eq_some.2 ⟨h4, h5⟩)
      · rintro ⟨p, h1, h2, h3⟩
        obtain ⟨i, h4⟩ := List.mem_iff_getElem?.1 h1
        obtain ⟨h5, h6⟩ := List.getElem?_zip_eq_some.1 h4
        have hlt := ht _ (List.getElem_mem hq) _ (List.mem_of_getElem? h6)
        obtain ⟨r, h7, h8⟩ := (ih _ hlt).2 h3
        exact ⟨r, .cons hs (h2 ▸ h5) h6 h7, h8⟩
  exact main w _ hi

/-- The same for NFAs without epsilon moves. -/
theorem Nfa.lang_of_table (n : Nfa) (S : Nat → Word → Prop) (hi : n.initialState < n.states.length)
    (heps : ∀ s ∈ n.states, s.epsilonTransitions = [])
    (hnil : ∀ q s, n.states[q]? = some s → (S q [] ↔ s.accepting = true))
    (hcons : ∀ q s, n.states[q]? = some s → ∀ e w,
      S q (e :: w) ↔ ∃ p ∈ n.alphabet.zip s.transitions, p.1 = e ∧ ∃ t ∈ p.2, S t w)
    (ht : ∀ s ∈ n.states, ∀ ts ∈ s.transitions, ∀ t ∈ ts, t < n.states.length) (w : Word) : n.Lang w ↔ S n.initialState w := by
  have main : ∀ (w : Word) (q : Nat), q < n.states.length → ((∃ r, n.Path q w r ∧ n.Acc r) ↔ S q w) := by
    intro w
    induction w with
    | nil =>
      intro q hq
      have hs := List.getElem?_eq_getElem hq
      rw [hnil q _ hs]
      constructor
      · rintro ⟨r, h1, s', h2, h3⟩
        cases h1 with
        | nil => rw [hs] at h2; cases h2; exact h3
        | eps h4 h5 _ => rw [heps _ (List.mem_of_getElem? h4)] at h5; cases h5
      · intro h
        exact ⟨q, .nil q, _, hs, h⟩
    | cons e w ih =>
      intro q hq
      have hs := List.getElem?_eq_getElem hq
      rw [hcons q _ hs]
      constructor
      · rintro ⟨r, h1, h2⟩
        cases h1 with
        | eps h4 h5 _ => rw [heps _ (List.mem_of_getElem? h4)] at h5; cases h5
        | step h3 h4 h5 h6 h7 =>
          rw [hs] at h3
          cases h3
          have hlt := ht _ (List.getElem_mem hq) _ (List.mem_of_getElem? h5) _ h6
          refine ⟨(e, _), ?_, rfl, _, h6, (ih _ hlt).1 ⟨r, h7, h2⟩⟩
          exact List.mem_of_getElem? (List.getElem?_zip_eq_some.2 ⟨h4, h5⟩)
      · rintro ⟨p, h1, h2, t, h3, h9⟩
        obtain ⟨i, h4⟩ := List.mem_iff_getElem?.1 h1
        obtain ⟨h5, h6⟩ := List.getElem?_zip_eq_some.1 h4
        have hlt := ht _ (List.getElem_mem hq) _ (List.mem_of_getElem? h6) _ h3
        obtain ⟨r, h7, h8⟩ := (ih _ hlt).2 h9
        exact ⟨r, .step hs (h2 ▸ h5) h6 h3 h7, h8⟩
  exact main w _ hi

/-! ## dandy/src/lib.rs -/

/-- dandy/src/lib.rs:12-17, the first example. -/
def docDfa1Text : Str :=
  c!"\n       a  b  c\n→ * s₀ s₁ s₀ s₂\n    s₁ s₂ s₁ s₁\n  * s₂ s₂ s₂ s₂\n"

/-- dandy/src/lib.rs:27-33, "equivalent_dfa". -/
def docDfa2Text : Str :=
  c!"\n    a b c\n→ * x z x y\n  * y y y y\n    z y w z\n    w y z w\n"

/-- dandy/src/lib.rs:54-58: the strings over a, b, c with "either only 'b's, two 'a's, a 'c' before the first occurrence of 'a'"
(two `a`s: at least two). -/
def DocLang (w : Word) : Prop :=
  Over [s 'a', s 'b', s 'c'] w ∧
    ((∀ e ∈ w, e = s 'b') ∨ 2 ≤ w.count (s 'a') ∨ ∃ u v, w = u ++ s 'c' :: v ∧ s 'a' ∉ u)

/-- The DFA of the first example. -/
def docDfa1 : Dfa :=
  ⟨[s 'a', s 'b', s 'c'], [⟨c!"s₀", true, true, [1, 0, 2]⟩, ⟨c!"s₁", false, false, [2, 1, 1]⟩, ⟨c!"s₂", false, true, [2, 2, 2]⟩], 0⟩

/-- The DFA of the second example. -/
def docDfa2 : Dfa :=
  ⟨[s 'a', s 'b', s 'c'], [⟨s 'x', true, true, [2, 0, 1]⟩, ⟨s 'y', false, true, [1, 1, 1]⟩, ⟨s 'z', false, false, [1, 3, 2]⟩,
    ⟨s 'w', false, false, [1, 2, 3]⟩], 0⟩

theorem docDfa1_lang (w : Word) : docDfa1.Lang w ↔ DocLang w := by
  refine Dfa.lang_of_table docDfa1 (fun q w => match q with
    | 0 => DocLang w
    | 1 => Over [s 'a', s 'b', s 'c'] w ∧ 1 ≤ w.count (s 'a')
    | 2 => Over [s 'a', s 'b', s 'c'] w
    | _ => False) (by decide) ?_ ?_ (by decide) w
  · intro q st h
    match q, h with
    | 0, h => cases h; simp [DocLang, Over]
    | 1, h => cases h; simp [Over]
    | 2, h => cases h; simp [Over]
  · intro q st h e w
    have ov : Over [s 'a', s 'b', s 'c'] (e :: w) ↔ (e = s 'a' ∨ e = s 'b' ∨ e = s 'c') ∧ Over [s 'a', s 'b', s 'c'] w := by
      simp [Over]
    match q, h with
    | 0, h =>
      cases h
      simp only [docDfa1, List.zip_cons_cons, List.zip_nil_right, List.mem_cons, List.not_mem_nil, or_false, exists_eq_or_imp,
        exists_eq_left]
      unfold DocLang
      rw [ov]
      constructor
      · rintro ⟨⟨he, hw⟩, h⟩
        rcases he with rfl | rfl | rfl
        · refine .inl ⟨rfl, hw, ?_⟩
          rcases h with h | h | ⟨u, v, h, hu⟩
          · exact absurd (h _ List.mem_cons_self) (by decide)
          · rw [List.count_cons_self] at h; omega
          · cases u with
            | nil => cases h
            | cons x u => rw [List.cons_append, List.cons.injEq] at h; exact absurd (h.1 ▸ List.mem_cons_self) hu
        · refine .inr (.inl ⟨rfl, hw, ?_⟩)
          rcases h with h | h | ⟨u, v, h, hu⟩
          · exact .inl fun x hx => h x (List.mem_cons_of_mem _ hx)
          · rw [List.count_cons_of_ne (by decide)] at h; exact .inr (.inl h)
          · cases u with
            | nil => cases h
            | cons x u =>
              rw [List.cons_append, List.cons.injEq] at h
              exact .inr (.inr ⟨u, v, h.2, fun hm => hu (List.mem_cons_of_mem _ hm)⟩)
        · exact .inr (.inr ⟨rfl, hw⟩)
      · rintro (⟨rfl, hw, h⟩ | ⟨rfl, hw, h⟩ | ⟨rfl, hw⟩)
        · refine ⟨⟨.inl rfl, hw⟩, .inr (.inl ?_)⟩
          rw [List.count_cons_self]; omega
        · refine ⟨⟨.inr (.inl rfl), hw⟩, ?_⟩
          rcases h with h | h | ⟨u, v, rfl, hu⟩
          · refine .inl fun x hx => ?_
            rcases List.mem_cons.1 hx with rfl | hx
            · rfl
            · exact h x hx
          · refine .inr (.inl ?_)
            rw [List.count_cons_of_ne (by decide)]; exact h
          · refine .inr (.inr ⟨s 'b' :: u, v, rfl, ?_⟩)
            intro hm
            rcases List.mem_cons.1 hm with h | h
            · exact absurd h (by decide)
            · exact hu h
        · exact ⟨⟨.inr (.inr rfl), hw⟩, .inr (.inr ⟨[], w, rfl, List.not_mem_nil⟩)⟩
    | 1, h =>
      cases h
      simp only [docDfa1, List.zip_cons_cons, List.zip_nil_right, List.mem_cons, List.not_mem_nil, or_false, exists_eq_or_imp,
        exists_eq_left]
      rw [ov]
      constructor
      · rintro ⟨⟨rfl | rfl | rfl, hw⟩, h⟩
        · exact .inl ⟨rfl, hw⟩
        · rw [List.count_cons_of_ne (by decide)] at h; exact .inr (.inl ⟨rfl, hw, h⟩)
        · rw [List.count_cons_of_ne (by decide)] at h; exact .inr (.inr ⟨rfl, hw, h⟩)
      · rintro (⟨rfl, hw⟩ | ⟨rfl, hw, h⟩ | ⟨rfl, hw, h⟩)
        · refine ⟨⟨.inl rfl, hw⟩, ?_⟩
          rw [List.count_cons_self]; omega
        · refine ⟨⟨.inr (.inl rfl), hw⟩, ?_⟩
          rw [List.count_cons_of_ne (by decide)]; exact h
        · refine ⟨⟨.inr (.inr rfl), hw⟩, ?_⟩
          rw [List.count_cons_of_ne (by decide)]; exact h
    | 2, h =>
      cases h
      simp only [docDfa1, List.zip_cons_cons, List.zip_nil_right, List.mem_cons, List.not_mem_nil, or_false, exists_eq_or_imp,
        exists_eq_left]
      rw [ov]
      tauto

/-- **C67** The first table of the documentation denotes the language the documentation says. -/
theorem C67_first_table : ∃ p d, Fa.dfa docDfa1Text = some p ∧ Validate.dfa p = .ok d ∧ ∀ w, d.accepts w = true ↔ DocLang w := by
  have h1 : (Fa.dfa docDfa1Text).map Validate.dfa = some (.ok docDfa1) := by decide +kernel
  obtain ⟨p, h2, h3⟩ := Option.map_eq_some_iff.1 h1
  refine ⟨p, docDfa1, h2, h3, fun w => ?_⟩
  rw [C01_dfa_accepts_iff _ (Dfa.wf_of_wfB (by decide))]
  exact docDfa1_lang w

example : DocLang [s 'b', s 'b'] ∧ DocLang [s 'a', s 'c', s 'a'] ∧ DocLang [s 'b', s 'c', s 'a'] ∧ ¬ DocLang [s 'b', s 'a', s 'c'] :=
  ⟨by rw [← docDfa1_lang, ← C01_dfa_accepts_iff _ (Dfa.wf_of_wfB (by decide))]; decide,
    by rw [← docDfa1_lang, ← C01_dfa_accepts_iff _ (Dfa.wf_of_wfB (by decide))]; decide,
    by rw [← docDfa1_lang, ← C01_dfa_accepts_iff _ (Dfa.wf_of_wfB (by decide))]; decide,
    by rw [← docDfa1_lang, ← C01_dfa_accepts_iff _ (Dfa.wf_of_wfB (by decide))]; decide⟩

/-- **C67** The second table of the documentation denotes the same language, and `equivalent_to` says so. -/
theorem C67_second_table : ∃ p1 d1 p2 d2, Fa.dfa docDfa1Text = some p1 ∧ Validate.dfa p1 = .ok d1 ∧ Fa.dfa docDfa2Text = some p2 ∧
    Validate.dfa p2 = .ok d2 ∧ (∀ w, d2.accepts w = true ↔ DocLang w) ∧ d1.equivalentTo d2 = some true := by
  have h1 : (Fa.dfa docDfa1Text).map Validate.dfa = some (.ok docDfa1) := by decide +kernel
  have h2 : (Fa.dfa docDfa2Text).map Validate.dfa = some (.ok docDfa2) := by decide +kernel
  obtain ⟨p1, h3, h4⟩ := Option.map_eq_some_iff.1 h1
  obtain ⟨p2, h5, h6⟩ := Option.map_eq_some_iff.1 h2
  have w1 : docDfa1.WF := Dfa.wf_of_wfB (by decide)
  have w2 : docDfa2.WF := Dfa.wf_of_wfB (by decide)
  have he : docDfa1.equivalentTo docDfa2 = some true := by decide +kernel
  refine ⟨p1, _, p2, _, h3, h4, h5, h6, fun w => ?_, he⟩
  rw [C01_dfa_accepts_iff _ w2, ← (((C11_dfa_equivalent_to _ _ w1 w2).2).1 he).2 w]
  exact docDfa1_lang w

/-! ## dandy/src/dfa/mod.rs -/

/-- dandy/src/dfa/mod.rs:17-23. -/
def docOddText : Str :=
  c!"\n           a  b\n    ->  s1 s2 s1\n      * s2 s3 s2\n        s3 s4 s3\n      * s4 s1 s4\n"

/-- The DFA of this example. -/
def docOdd : Dfa :=
  ⟨[s 'a', s 'b'], [⟨c!"s1", true, false, [1, 0]⟩, ⟨c!"s2", false, true, [2, 1]⟩, ⟨c!"s3", false, false, [3, 2]⟩,
    ⟨c!"s4", false, true, [0, 3]⟩], 0⟩

theorem docOdd_lang (w : Word) : docOdd.Lang w ↔ Over [s 'a', s 'b'] w ∧ w.count (s 'a') % 2 = 1 := by
  have := Dfa.lang_of_table docOdd (fun q w => Over [s 'a', s 'b'] w ∧ (w.count (s 'a') + q) % 2 = 1) (by decide) ?_ ?_ (by decide) w
  · simpa [docOdd] using this
  · intro q st h
    match q, h with
    | 0, h => cases h; simp [Over]
    | 1, h => cases h; simp [Over]
    | 2, h => cases h; simp [Over]
    | 3, h => cases h; simp [Over]
  · intro q st h e w
    have ov : Over [s 'a', s 'b'] (e :: w) ↔ (e = s 'a' ∨ e = s 'b') ∧ Over [s 'a', s 'b'] w := by
      simp [Over]
    have hb : ∀ w : Word, (s 'b' :: w).count (s 'a') = w.count (s 'a') := fun w => List.count_cons_of_ne (by decide)
    have ha : ∀ w : Word, (s 'a' :: w).count (s 'a') = w.count (s 'a') + 1 := fun w => List.count_cons_self
    rw [ov]
    match q, h with
    | 0, h | 1, h | 2, h | 3, h =>
      cases h
      simp only [docOdd, List.zip_cons_cons, List.zip_nil_right, List.mem_cons, List.not_mem_nil, or_false, exists_eq_or_imp,
        exists_eq_left]
      constructor
      · rintro ⟨⟨rfl | rfl, hw⟩, h⟩
        · rw [ha] at h; exact .inl ⟨rfl, hw, by omega⟩
        · rw [hb] at h; exact .inr ⟨rfl, hw, by omega⟩
      · rintro (⟨rfl, hw, h⟩ | ⟨rfl, hw, h⟩)
        · exact ⟨⟨.inl rfl, hw⟩, by rw [ha]; omega⟩
        · exact ⟨⟨.inr rfl, hw⟩, by rw [hb]; omega⟩

/-- **C67** The table of the module documentation of DFAs accepts "all strings with an odd number of a:s"; minimizing it gives two
states, in whatever order the hash sets are iterated. -/
theorem C67_odd (u m k : List Nat → List Nat) (hu : ∀ l, (u l).Perm l) (hm : ∀ l, (m l).Perm l) (hk : ∀ l, (k l).Perm l) :
    ∃ p d, Fa.dfa docOddText = some p ∧ Validate.dfa p = .ok d ∧
      (∀ w, d.accepts w = true ↔ Over [s 'a', s 'b'] w ∧ w.count (s 'a') % 2 = 1) ∧
      ∃ d', d.minimize u m k = some d' ∧ d'.states.length = 2 := by
  have h1 : (Fa.dfa docOddText).map Validate.dfa = some (.ok docOdd) := by decide +kernel
  obtain ⟨p, h2, h3⟩ := Option.map_eq_some_iff.1 h1
  have hw : docOdd.WF := Dfa.wf_of_wfB (by decide)
  refine ⟨p, docOdd, h2, h3, fun w => ?_, ?_⟩
  · rw [C01_dfa_accepts_iff _ hw]
    exact docOdd_lang w
  · have hid : ∀ l : List Nat, (id l).Perm l := fun l => List.Perm.refl l
    obtain ⟨d', m', φ, h4, h5, h6⟩ := C17_minimize_unique u m k id id id hu hm hk hid hid hid docOdd docOdd hw hw rfl (fun _ => Iff.rfl)
    refine ⟨d', h4, ?_⟩
    have h7 : (docOdd.minimize id id id).map (fun d => d.states.length) = some 2 := by decide +kernel
    rw [h5] at h7
    rw [h6.count]
    exact Option.some.inj h7

example : ∃ p d, Fa.dfa docOddText = some p ∧ Validate.dfa p = .ok d ∧ d.accepts [s 'a', s 'b', s 'b'] = true ∧
    d.accepts [s 'a', s 'a', s 'b'] = false := by
  have hid : ∀ l : List Nat, (id l).Perm l := fun l => List.Perm.refl l
  obtain ⟨p, d, h1, h2, h3, _⟩ := C67_odd id List.reverse id hid (fun l => List.reverse_perm l) hid
  refine ⟨p, d, h1, h2, (h3 _).2 (by decide), ?_⟩
  rw [Bool.eq_false_iff]
  exact fun h => absurd ((h3 _).1 h) (by decide)

/-! ## dandy/src/nfa/mod.rs -/

/-- dandy/src/nfa/mod.rs:17-23, and again in the other examples of that file. -/
def docAabText : Str :=
  c!"\n            a       b\n    ->  s1 {s1 s2} {s1}\n        s2 {s3}    {}\n        s3 {}      {s4}\n      * s4 {}      {}\n"

/-- The NFA of this example. -/
def docAab : Nfa :=
  ⟨[s 'a', s 'b'], [⟨c!"s1", true, false, [], [[0, 1], [0]]⟩, ⟨c!"s2", false, false, [], [[2], []]⟩,
    ⟨c!"s3", false, false, [], [[], [3]]⟩, ⟨c!"s4", false, true, [], [[], []]⟩], 0⟩

theorem docAab_lang (w : Word) : docAab.Lang w ↔ Over [s 'a', s 'b'] w ∧ [s 'a', s 'a', s 'b'] <:+ w := by
  refine Nfa.lang_of_table docAab (fun q w => match q with
    | 0 => Over [s 'a', s 'b'] w ∧ [s 'a', s 'a', s 'b'] <:+ w
    | 1 => w = [s 'a', s 'b']
    | 2 => w = [s 'b']
    | 3 => w = []
    | _ => False) (by decide) (by decide) ?_ ?_ (by decide) w
  · intro q st h
    match q, h with
    | 0, h => cases h; simp
    | 1, h => cases h; simp
    | 2, h => cases h; simp
    | 3, h => cases h; simp
  · intro q st h e w
    have ov : Over [s 'a', s 'b'] (e :: w) ↔ (e = s 'a' ∨ e = s 'b') ∧ Over [s 'a', s 'b'] w := by
      simp [Over]
    match q, h with
    | 0, h =>
      cases h
      simp only [docAab, List.zip_cons_cons, List.zip_nil_right, List.mem_cons, List.not_mem_nil, or_false, exists_eq_or_imp,
        exists_eq_left, ov, List.suffix_cons_iff, List.cons.injEq]
      constructor
      · rintro ⟨⟨rfl | rfl, hw⟩, h | h⟩
        · exact .inl ⟨rfl, .inr h.2.symm⟩
        · exact .inl ⟨rfl, .inl ⟨hw, h⟩⟩
        · exact absurd h.1 (by decide)
        · exact .inr ⟨rfl, hw, h⟩
      · rintro (⟨rfl, ⟨hw, h⟩ | rfl⟩ | ⟨rfl, hw, h⟩)
        · exact ⟨⟨.inl rfl, hw⟩, .inr h⟩
        · exact ⟨⟨.inl rfl, by decide⟩, .inl ⟨rfl, rfl⟩⟩
        · exact ⟨⟨.inr rfl, hw⟩, .inr h⟩
    | 1, h =>
      cases h
      simp only [docAab, List.zip_cons_cons, List.zip_nil_right, List.mem_cons, List.not_mem_nil, or_false, exists_eq_or_imp,
        exists_eq_left, List.cons.injEq, false_and, exists_false, and_false]
      exact and_congr_left fun _ => eq_comm
    | 2, h =>
      cases h
      simp only [docAab, List.zip_cons_cons, List.zip_nil_right, List.mem_cons, List.not_mem_nil, or_false, exists_eq_or_imp,
        exists_eq_left, List.cons.injEq, false_and, exists_false, and_false, false_or]
      exact and_congr_left fun _ => eq_comm
    | 3, h =>
      cases h
      simp [docAab]

/-- **C67** The table of the module documentation of NFAs "accepts all strings ending with aab". -/
theorem C67_aab : ∃ p n, Fa.nfa docAabText = some p ∧ Validate.nfa p = .ok n ∧
    ∀ w, n.accepts w = true ↔ Over [s 'a', s 'b'] w ∧ [s 'a', s 'a', s 'b'] <:+ w := by
  have h1 : (Fa.nfa docAabText).map Validate.nfa = some (.ok docAab) := by decide +kernel
  obtain ⟨p, h2, h3⟩ := Option.map_eq_some_iff.1 h1
  refine ⟨p, docAab, h2, h3, fun w => ?_⟩
  rw [C02_nfa_accepts_iff _ (Nfa.wf_of_wfB (by decide))]
  exact docAab_lang w

example : Over [s 'a', s 'b'] [s 'b', s 'a', s 'a', s 'b'] ∧ [s 'a', s 'a', s 'b'] <:+ [s 'b', s 'a', s 'a', s 'b'] ∧
    ¬ [s 'a', s 'a', s 'b'] <:+ [s 'a', s 'a', s 'b', s 'b'] := by decide

/-! ## dandy/src/regex/mod.rs -/

/-- A segmentation breaks between ASCII characters (other than after a carriage return) and before `ε` and `∅`, as the Unicode
rules do. -/
def BreaksAscii (cl : Str → Nat) : Prop :=
  ∀ (c : Char) (r : Str), c.toNat < 128 → c ≠ '\r' → (∀ d ∈ r.head?, d.toNat < 128 ∨ d = 'ε' ∨ d = '∅') → cl (c :: r) = 1

theorem cl1_breaks : BreaksAscii cl1 := by
  intro c r _ _ _
  simp [cl1]

theorem plain_atom {cl : Str → Nat} {c : Char} {r : Str} (h : ¬ IsReserved c) (hc : cl (c :: r) = 1) : AtomL cl (c :: r) r {[[c]]} [[c]] := by
  have := AtomL.plain (cl := cl) (s := r) h
  rw [hc] at this
  exact this

theorem kstar_singleton (u w : Word) : w ∈ KStar.kstar ({u} : Language Str) ↔ ∃ n, w = (List.replicate n u).flatten := by
  rw [Language.mem_kstar]
  constructor
  · rintro ⟨l, rfl, h⟩
    refine ⟨l.length, ?_⟩
    rw [List.eq_replicate_of_mem (a := u) (l := l) (fun y hy => h y hy), List.length_replicate]
  · rintro ⟨n, rfl⟩
    exact ⟨_, rfl, fun y hy => (List.mem_replicate.1 hy).2⟩

theorem singleton_mul_singleton (u v : Word) : ({u} * {v} : Language Str) = {u ++ v} := by
  ext w
  rw [Language.mem_mul]
  constructor
  · rintro ⟨a, rfl, b, rfl, rfl⟩; exact rfl
  · rintro rfl; exact ⟨u, rfl, v, rfl, rfl⟩

/-- A sentence of the grammar is parsed, and the NFA of the result accepts its language. -/
theorem parsed_lang {cl : Str → Nat} (hs : Segmentation cl) {text : Str} {L : Language Str} {gs : List Str} (ht : Trimmed text text)
    (h : ExprL cl text [] L gs) : ∃ t, RegexParser.regex cl text = some t ∧ ∀ w, t.toNfa.accepts w = true ↔ w ∈ L := by
  obtain ⟨t, h1⟩ := (C36_accepts_iff cl hs text text ht).2 ⟨L, gs, h⟩
  exact ⟨t, h1, (C36_to_nfa cl hs text text ht t h1 L gs h).1⟩

theorem trimmed_self {text : Str} (h1 : ∀ c ∈ text.head?, ¬ WhiteSpace c) (h2 : ∀ c ∈ text.getLast?, ¬ WhiteSpace c) : Trimmed text text :=
  ⟨[], [], by simp, by simp, by simp, h1, h2⟩

instance (c : Char) : Decidable (IsReserved c) := by unfold IsReserved; infer_instance

/-- The phrase `(ab)` of the grammar. -/
theorem ab_atom {cl : Str → Nat} (hb : BreaksAscii cl) (r : Str) : AtomL cl ('(' :: 'a' :: 'b' :: ')' :: r) r {[s 'a', s 'b']} [s 'a', s 'b'] := by
  have h1 : ItemL cl ('a' :: 'b' :: ')' :: r) ('b' :: ')' :: r) {[s 'a']} [s 'a'] :=
    .atom (plain_atom (by decide) (hb _ _ (by decide) (by decide) (by simp)))
  have h2 : ItemL cl ('b' :: ')' :: r) (')' :: r) {[s 'b']} [s 'b'] :=
    .atom (plain_atom (by decide) (hb _ _ (by decide) (by decide) (by simp)))
  have h3 := SeqL.cons h1 (.one h2)
  rw [singleton_mul_singleton] at h3
  exact .par (.one h3)

/-- **C67** `(ab)+` matches exactly `ab`, `abab`, `ababab`, ..., and `(ab)*` also the empty string (dandy/src/regex/mod.rs:14-15). -/
theorem C67_regexes (cl : Str → Nat) (hs : Segmentation cl) (hb : BreaksAscii cl) :
    (∃ t, RegexParser.regex cl c!"(ab)+" = some t ∧
      ∀ w, t.toNfa.accepts w = true ↔ ∃ n, 1 ≤ n ∧ w = (List.replicate n [s 'a', s 'b']).flatten) ∧
    ∃ t, RegexParser.regex cl c!"(ab)*" = some t ∧
      ∀ w, t.toNfa.accepts w = true ↔ ∃ n, w = (List.replicate n [s 'a', s 'b']).flatten := by
  constructor
  · obtain ⟨t, h1, h2⟩ := parsed_lang hs (text := c!"(ab)+") (trimmed_self (by decide) (by decide))
      (.one (.one (.plus (ab_atom hb _))))
    refine ⟨t, h1, fun w => (h2 w).trans ?_⟩
    rw [Language.mem_mul]
    constructor
    · rintro ⟨a, rfl, b, hb', rfl⟩
      obtain ⟨n, rfl⟩ := (kstar_singleton _ _).1 hb'
      exact ⟨n + 1, by omega, by simp [List.replicate_succ]⟩
    · rintro ⟨n, hn, rfl⟩
      obtain ⟨m, rfl⟩ : ∃ m, n = m + 1 := ⟨n - 1, by omega⟩
      exact ⟨_, rfl, _, (kstar_singleton _ _).2 ⟨m, rfl⟩, by simp [List.replicate_succ]⟩
  · obtain ⟨t, h1, h2⟩ := parsed_lang hs (text := c!"(ab)*") (trimmed_self (by decide) (by decide))
      (.one (.one (.star (ab_atom hb _))))
    exact ⟨t, h1, fun w => (h2 w).trans (kstar_singleton _ _)⟩

example : Segmentation cl1 ∧ BreaksAscii cl1 := ⟨cl1_seg, cl1_breaks⟩

/-- **C67** The third expression, in the form used in the example code (`0*1(0|ε)`), matches exactly zeros, a one, and at most one zero. -/
theorem C67_regex_third (cl : Str → Nat) (hs : Segmentation cl) (hb : BreaksAscii cl) :
    ∃ t, RegexParser.regex cl c!"0*1(0|ε)" = some t ∧
      ∀ w, t.toNfa.accepts w = true ↔ ∃ n, w = List.replicate n (s '0') ++ [s '1'] ∨ w = List.replicate n (s '0') ++ [s '1', s '0'] := by
  have h1 : ItemL cl c!"0*1(0|ε)" c!"1(0|ε)" (KStar.kstar {[s '0']}) [s '0'] :=
    .star (plain_atom (by decide) (hb _ _ (by decide) (by decide) (by simp)))
  have h2 : ItemL cl c!"1(0|ε)" c!"(0|ε)" {[s '1']} [s '1'] :=
    .atom (plain_atom (by decide) (hb _ _ (by decide) (by decide) (by simp)))
  have h3 : SeqL cl c!"0|ε)" c!"|ε)" {[s '0']} [s '0'] :=
    .one (.atom (plain_atom (by decide) (hb _ _ (by decide) (by decide) (by simp))))
  have h4 : ExprL cl c!"ε)" c!")" 1 [] := .one (.one (.atom .epsilon))
  have h5 : ItemL cl c!"(0|ε)" [] ({[s '0']} + 1) ([s '0'] ++ []) := .atom (.par (.alt h3 h4))
  obtain ⟨t, h6, h7⟩ := parsed_lang hs (text := c!"0*1(0|ε)") (trimmed_self (by decide) (by decide))
    (.one (.cons h1 (.cons h2 (.one h5))))
  refine ⟨t, h6, fun w => (h7 w).trans ?_⟩
  rw [Language.mem_mul]
  constructor
  · rintro ⟨a, ha, b, hb', rfl⟩
    obtain ⟨n, rfl⟩ := (kstar_singleton _ _).1 ha
    obtain ⟨c, rfl, d, hd, rfl⟩ := Language.mem_mul.1 hb'
    have e : (List.replicate n [s '0']).flatten = List.replicate n (s '0') := by simp
    rcases (Language.mem_add _ _ _).1 hd with rfl | hd
    · exact ⟨n, .inr (by rw [e]; rfl)⟩
    · rw [(Language.mem_one _).1 hd]
      exact ⟨n, .inl (by rw [e]; rfl)⟩
  · have hk : ∀ n, List.replicate n (s '0') ∈ KStar.kstar ({[s '0']} : Language Str) :=
      fun n => (kstar_singleton _ _).2 ⟨n, by simp⟩
    rintro ⟨n, rfl | rfl⟩
    · exact ⟨_, hk n, [s '1'], Language.mem_mul.2 ⟨[s '1'], rfl, [], (Language.mem_add _ _ _).2 (.inr ((Language.mem_one _).2 rfl)), rfl⟩, rfl⟩
    · exact ⟨_, hk n, [s '1', s '0'], Language.mem_mul.2 ⟨[s '1'], rfl, [s '0'], (Language.mem_add _ _ _).2 (.inl rfl), rfl⟩, rfl⟩

/-- **C67** The documentation says of the third expression that it matches "all other strings containing the character 1 once"
(dandy/src/regex/mod.rs:16). It does not, even if the alternation is written as in the example code: `100` is not matched. -/
theorem C67_once_false (cl : Str → Nat) (hs : Segmentation cl) (hb : BreaksAscii cl) :
    ∃ t w, RegexParser.regex cl c!"0*1(0|ε)" = some t ∧ Over [s '0', s '1'] w ∧ w.count (s '1') = 1 ∧ t.toNfa.accepts w = false := by
  obtain ⟨t, h1, h2⟩ := C67_regex_third cl hs hb
  refine ⟨t, [s '1', s '0', s '0'], h1, by decide, by decide, ?_⟩
  rw [Bool.eq_false_iff, ne_eq, h2]
  rintro ⟨n, h | h⟩
  · have := congrArg List.length h
    have hn : n = 2 := by simp at this; omega
    subst hn
    exact absurd h (by decide)
  · have := congrArg List.length h
    have hn : n = 1 := by simp at this; omega
    subst hn
    exact absurd h (by decide)

/-- **C67** "The only word not in both regex1 and regex2 is the empty word" (dandy/src/regex/mod.rs:41): the symmetric difference of
the two DFAs accepts the empty word and nothing else, whatever the order in which hash sets are iterated. -/
theorem C67_symmetric_difference (cl : Str → Nat) (hs : Segmentation cl) (hb : BreaksAscii cl)
    (ord : List (Nat × Nat) → List (Nat × Nat)) (hord : ∀ l, (ord l).Perm l) :
    ∃ t1 t2 d1 d2 d, RegexParser.regex cl c!"(ab)+" = some t1 ∧ RegexParser.regex cl c!"(ab)*" = some t2 ∧ t1.toNfa.toDfa = some d1 ∧
      t2.toNfa.toDfa = some d2 ∧ Dfa.symmetricDifference ord d1 d2 = some (some d) ∧ ∀ w, d.toNfa.accepts w = true ↔ w = [] := by
  obtain ⟨⟨t1, p1, a1⟩, t2, p2, a2⟩ := C67_regexes cl hs hb
  have al1 := (C36_to_nfa cl hs c!"(ab)+" _ (trimmed_self (by decide) (by decide)) t1 p1 _ _ (.one (.one (.plus (ab_atom hb _))))).2.2.1
  have al2 := (C36_to_nfa cl hs c!"(ab)*" _ (trimmed_self (by decide) (by decide)) t2 p2 _ _ (.one (.one (.star (ab_atom hb _))))).2.2.1
  have w1 := C35_to_nfa_valid t1
  have w2 := C35_to_nfa_valid t2
  obtain ⟨d1, e1, f1, g1, l1, _⟩ := C19_to_dfa _ w1
  obtain ⟨d2, e2, f2, g2, l2, _⟩ := C19_to_dfa _ w2
  have hse : SameElems d1.alphabet d2.alphabet := by
    intro e
    rw [g1, g2, al1, al2, List.mem_append, or_self]
  obtain ⟨d, h1, h2, h3, h4⟩ := ((C09_dfa_set_operations ord hord d1 d2 f1 f2).2 hse).2.2.2
  refine ⟨t1, t2, d1, d2, d, p1, p2, e1, e2, h1, fun w => ?_⟩
  have h5 := C18_to_nfa_lang d h2 w
  rw [C02_nfa_accepts_iff _ h5.1, h5.2.1, h4, l1, l2, ← C02_nfa_accepts_iff _ w1, ← C02_nfa_accepts_iff _ w2, a1, a2]
  constructor
  · intro h
    by_contra hw
    apply h
    constructor
    · rintro ⟨n, _, hn⟩; exact ⟨n, hn⟩
    · rintro ⟨n, hn⟩
      refine ⟨n, ?_, hn⟩
      rcases n with _ | n
      · exact absurd hn hw
      · omega
  · rintro rfl h
    obtain ⟨n, h1, h2⟩ := h.2 ⟨0, rfl⟩
    obtain ⟨m, rfl⟩ : ∃ m, n = m + 1 := ⟨n - 1, by omega⟩
    simp [List.replicate_succ] at h2

/-! ## Instances of the theorems of this file -/

example := C67_second_table 
example := C67_regex_third cl1 cl1_seg cl1_breaks
example := C67_symmetric_difference cl1 cl1_seg cl1_breaks List.reverse (fun l => List.reverse_perm l)

end Dandy
