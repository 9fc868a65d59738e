import Verif.Model.Examples
import Verif.Model.Window
import Verif.Props.Cli
import Verif.Props.Docs
/-!
# C89: the example files are what their names and comments say

The files of dandy-cli/tests and dandy/tests/test_files are run through the model of the parsers, and the language of the result is
compared with what names and comments say, for all words.
-/

namespace Dandy
open Cli Cli.Automata Samples Examples

/-- The words over `a` and `b` with an even number of `a`s. -/
def EvenAs (w : Word) : Prop := Over [s 'a', s 'b'] w ∧ w.count (s 'a') % 2 = 0

/-- The DFA of `correct.dfa`. -/
private def correct : Dfa :=
  ⟨[s 'a', s 'b'], [⟨s '0', true, true, [1, 0]⟩, ⟨s '1', false, false, [2, 1]⟩, ⟨s '2', false, true, [3, 2]⟩,
    ⟨s '3', false, false, [0, 3]⟩, ⟨s '4', false, false, [4, 4]⟩], 0⟩

/-- The DFA of `correct_minimized.dfa`. -/
private def minimized : Dfa := ⟨[s 'a', s 'b'], [⟨s '0', true, true, [1, 0]⟩, ⟨s '1', false, false, [0, 1]⟩], 0⟩

/-- The DFA of `incorrect.dfa` and `eq_example2_nfa.dfa`. -/
private def incorrect : Dfa :=
  ⟨[s 'a', s 'b'], [⟨s 'a', true, false, [1, 2]⟩, ⟨s 'b', false, false, [3, 4]⟩, ⟨s 'c', false, false, [3, 5]⟩,
    ⟨s 'd', false, true, [3, 4]⟩, ⟨s 'e', false, true, [6, 7]⟩, ⟨s 'f', false, true, [3, 5]⟩, ⟨s 'g', false, true, [6, 7]⟩,
    ⟨s 'h', false, true, [7, 7]⟩], 0⟩

/-- The DFA of `init_b.dfa`. -/
private def startsB : Dfa :=
  ⟨[s 'a', s 'b', s 'c'], [⟨s 'i', true, false, [1, 2, 1]⟩, ⟨s 'n', false, false, [1, 1, 1]⟩, ⟨s 'y', false, true, [2, 2, 2]⟩], 0⟩

/-- The DFA of `term_a.dfa`. -/
private def endsA : Dfa := ⟨[s 'a', s 'b', s 'c'], [⟨s 'n', true, false, [1, 0, 0]⟩, ⟨s 'y', false, true, [1, 0, 0]⟩], 0⟩

private theorem minimized_lang (w : Word) : minimized.Lang w ↔ EvenAs w := by
  have := Dfa.lang_of_table minimized (fun q w => Over [s 'a', s 'b'] w ∧ (w.count (s 'a') + q) % 2 = 0) (by decide) ?_ ?_ (by decide) w
  · simpa [minimized, EvenAs] using this
  · intro q st h
    match q, h with
    | 0, h => cases h; simp [Over]
    | 1, h => cases h; simp [Over]
  · intro q st h e w
    have ov : Over [s 'a', s 'b'] (e :: w) ↔ (e = s 'a' ∨ e = s 'b') ∧ Over [s 'a', s 'b'] w := by
      simp [Over]
    have hb : ∀ w : Word, (s 'b' :: w).count (s 'a') = w.count (s 'a') := fun w => List.count_cons_of_ne (by decide)
    have ha : ∀ w : Word, (s 'a' :: w).count (s 'a') = w.count (s 'a') + 1 := fun w => List.count_cons_self
    rw [ov]
    match q, h with
    | 0, h | 1, h =>
      cases h
      simp only [minimized, List.zip_cons_cons, List.zip_nil_right, List.mem_cons, List.not_mem_nil, or_false, exists_eq_or_imp,
        exists_eq_left]
      constructor
      · rintro ⟨⟨rfl | rfl, hw⟩, h⟩
        · rw [ha] at h; exact .inl ⟨rfl, hw, by omega⟩
        · rw [hb] at h; exact .inr ⟨rfl, hw, by omega⟩
      · rintro (⟨rfl, hw, h⟩ | ⟨rfl, hw, h⟩)
        · exact ⟨⟨.inl rfl, hw⟩, by rw [ha]; omega⟩
        · exact ⟨⟨.inr rfl, hw⟩, by rw [hb]; omega⟩

private theorem correct_wf : correct.WF := Dfa.wf_of_wfB (by decide)
private theorem minimized_wf : minimized.WF := Dfa.wf_of_wfB (by decide)
private theorem incorrect_wf : incorrect.WF := Dfa.wf_of_wfB (by decide)

private theorem correct_lang (w : Word) : correct.Lang w ↔ EvenAs w := by
  have h : correct.equivalentTo minimized = some true := by decide +kernel
  rw [((C11_dfa_equivalent_to _ _ correct_wf minimized_wf).2.1 h).2 w, minimized_lang]

private theorem minimized_min : Minimal minimized := by
  intro o ho ha hl
  have hid : ∀ l : List Nat, (id l).Perm l := fun l => List.Perm.refl l
  obtain ⟨m, h1, _, _, _, h2⟩ := C16_minimize id id id hid hid hid minimized minimized_wf
  have h3 : (minimized.minimize id id id).map (fun d => d.states.length) = some 2 := by decide +kernel
  rw [h1] at h3
  rw [show minimized.states.length = 2 from rfl, ← Option.some.inj h3]
  exact h2 o ho ha hl

private theorem load_text {cl : Str → Nat} {text : Str} {d : Dfa} (h : (Fa.dfa text).map Validate.dfa = some (.ok d)) :
    load cl text .dfa = .ok (.dfa d) := by
  obtain ⟨p, h1, h2⟩ := Option.map_eq_some_iff.1 h
  exact load_dfa_iff.2 ⟨p, d, h1, h2, rfl⟩

private theorem load_correct (cl : Str → Nat) : load cl correctDfa .dfa = .ok (.dfa correct) := load_text (by decide +kernel)
private theorem load_minimized (cl : Str → Nat) : load cl correctMinimizedDfa .dfa = .ok (.dfa minimized) := load_text (by decide +kernel)
private theorem load_incorrect (cl : Str → Nat) : load cl incorrectDfa .dfa = .ok (.dfa incorrect) := load_text (by decide +kernel)

/-- The expression in `same.regex`. -/
private theorem same_expr : ∃ L gs, ∀ cl, BreaksAscii cl → ExprL cl c!"b*(b*ab*ab*)*b*" [] L gs := by
  let B : Language Str := KStar.kstar {[s 'b']}
  let A : Language Str := {[s 'a']}
  refine ⟨B * (KStar.kstar (B * (A * (B * (A * B)))) * B), [s 'b'] ++ (([s 'b'] ++ ([s 'a'] ++ ([s 'b'] ++ ([s 'a'] ++ [s 'b'])))) ++ [s 'b']),
    fun cl hb => ?_⟩
  have b : ∀ r : Str, (∀ d ∈ r.head?, d.toNat < 128 ∨ d = 'ε' ∨ d = '∅') →
      ItemL cl ('b' :: '*' :: r) r (KStar.kstar {[s 'b']}) [s 'b'] :=
    fun r _ => .star (plain_atom (by decide) (hb _ _ (by decide) (by decide) (by simp)))
  have a : ∀ r : Str, ItemL cl ('a' :: 'b' :: r) ('b' :: r) {[s 'a']} [s 'a'] :=
    fun r => .atom (plain_atom (by decide) (hb _ _ (by decide) (by decide) (by simp)))
  have inner : SeqL cl c!"b*ab*ab*)*b*" c!")*b*" _ _ :=
    .cons (b _ (by decide)) (.cons (a _) (.cons (b _ (by decide)) (.cons (a _) (.one (b _ (by decide))))))
  exact .one (.cons (b _ (by decide)) (.cons (.star (.par (.one inner))) (.one (b _ (by decide)))))

private theorem same_trimmed : Trimmed sameRegex c!"b*(b*ab*ab*)*b*" :=
  ⟨[], ['\n'], rfl, by simp, by decide, by decide, by decide⟩

private theorem load_same {cl : Str → Nat} (hs : Segmentation cl) (hb : BreaksAscii cl) :
    ∃ t, load cl sameRegex .regex = .ok (.regex t) ∧ (∀ w, Matches t w ↔ EvenAs w) ∧ SameElems t.graphemes [s 'a', s 'b'] := by
  obtain ⟨L, gs, hl⟩ := same_expr
  obtain ⟨t, h1⟩ := (C36_accepts_iff cl hs _ _ same_trimmed).2 ⟨L, gs, hl cl hb⟩
  have h2 := (C36_language cl hs _ _ same_trimmed t h1 L gs).1 (hl cl hb)
  -- with the simplest segmentation
  have h3 : ∃ t', RegexParser.regex cl1 sameRegex = some t' ∧ t'.toNfa.equivalentTo minimized.toNfa = some true := by
    refine ⟨_, rfl, ?_⟩
    decide +kernel
  obtain ⟨t', h3, h4⟩ := h3
  have h5 := (C36_language cl1 cl1_seg _ _ same_trimmed t' h3 L gs).1 (hl cl1 cl1_breaks)
  obtain ⟨b, h6, h7⟩ := C20_nfa_equivalent_to t'.toNfa minimized.toNfa (C35_to_nfa_valid t') (C18_to_nfa_lang _ minimized_wf []).1
  rw [h4] at h6
  have h8 := h7.1 (Option.some.inj h6).symm
  have hm : ∀ w, Matches t w ↔ Matches t' w := fun w => by
    have e := h2.1.symm.trans h5.1
    exact ⟨fun h => (e ▸ h : w ∈ {w : Word | Matches t' w}), fun h => (e ▸ h : w ∈ {w : Word | Matches t w})⟩
  refine ⟨t, ?_, fun w => ?_, fun e => ?_⟩
  · unfold load
    rw [RegexE.regex_ok.2 h1]
  · rw [hm, ← C34_to_nfa_accepts, C02_nfa_accepts_iff _ (C35_to_nfa_valid t'), h8.2, (C18_to_nfa_lang _ minimized_wf w).2.1, minimized_lang]
  · rw [← h2.2, h5.2, ← (C35_to_nfa_alphabet t').1, h8.1 e]
    rfl

/-- **C89** The three solutions in the example tree, a DFA, a minimal DFA and an expression, are all loaded and describe the words with
an even number of `a`s; `correct_minimized.dfa` is minimal, `correct.dfa` is not. -/
theorem C89_even (cl : Str → Nat) (hs : Segmentation cl) (hb : BreaksAscii cl) :
    ∃ d m t, load cl correctDfa .dfa = .ok (.dfa d) ∧ load cl correctMinimizedDfa .dfa = .ok (.dfa m) ∧
      load cl sameRegex .regex = .ok (.regex t) ∧
      (∀ w, d.accepts w = true ↔ EvenAs w) ∧ (∀ w, m.accepts w = true ↔ EvenAs w) ∧ (∀ w, t.toNfa.accepts w = true ↔ EvenAs w) ∧
      Minimal m ∧ ¬ Minimal d := by
  obtain ⟨t, h1, h2, _⟩ := load_same hs hb
  have hw := minimized_wf
  refine ⟨_, _, t, load_correct cl, load_minimized cl, h1, fun w => ?_, fun w => ?_, fun w => ?_, minimized_min, fun h => ?_⟩
  · rw [C01_dfa_accepts_iff _ correct_wf, correct_lang]
  · rw [C01_dfa_accepts_iff _ hw, minimized_lang]
  · rw [C34_to_nfa_accepts, h2]
  · exact absurd (h minimized hw (fun _ => Iff.rfl) (fun w => by rw [minimized_lang, correct_lang])) (by decide)

example : EvenAs [] ∧ EvenAs [s 'a', s 'b', s 'a'] ∧ ¬ EvenAs [s 'b', s 'a'] := by unfold EvenAs; decide

/-- **C89** `init_b.dfa` and `term_a.dfa`: the words over `a`, `b`, `c` that begin with `b` or end with `a`. -/
theorem C89_init_term (cl : Str → Nat) :
    ∃ d e, load cl initB .dfa = .ok (.dfa d) ∧ load cl termA .dfa = .ok (.dfa e) ∧
      (∀ w, d.accepts w = true ↔ Over [s 'a', s 'b', s 'c'] w ∧ [s 'b'] <+: w) ∧
      ∀ w, e.accepts w = true ↔ Over [s 'a', s 'b', s 'c'] w ∧ [s 'a'] <:+ w := by
  refine ⟨startsB, endsA, load_text (by decide +kernel), load_text (by decide +kernel), fun w => ?_, fun w => ?_⟩
  · rw [C01_dfa_accepts_iff _ (Dfa.wf_of_wfB (by decide))]
    refine Dfa.lang_of_table startsB (fun q w => match q with
      | 0 => Over [s 'a', s 'b', s 'c'] w ∧ [s 'b'] <+: w
      | 1 => False
      | 2 => Over [s 'a', s 'b', s 'c'] w
      | _ => False) (by decide) ?_ ?_ (by decide) w
    · intro q st h
      match q, h with
      | 0, h => cases h; simp
      | 1, h => cases h; simp
      | 2, h => cases h; simp [Over]
    · intro q st h e w
      have ov : Over [s 'a', s 'b', s 'c'] (e :: w) ↔ (e = s 'a' ∨ e = s 'b' ∨ e = s 'c') ∧ Over [s 'a', s 'b', s 'c'] w := by
        simp [Over]
      match q, h with
      | 0, h =>
        cases h
        simp only [startsB, List.zip_cons_cons, List.zip_nil_right, List.mem_cons, List.not_mem_nil, or_false, exists_eq_or_imp,
          exists_eq_left, ov, List.cons_prefix_cons, List.nil_prefix, and_true, and_false, or_false, false_or]
        constructor
        · rintro ⟨⟨_, h⟩, h2⟩; exact ⟨h2, h⟩
        · rintro ⟨rfl, h⟩; exact ⟨⟨.inr (.inl rfl), h⟩, rfl⟩
      | 1, h =>
        cases h
        simp [startsB]
      | 2, h =>
        cases h
        simp only [startsB, List.zip_cons_cons, List.zip_nil_right, List.mem_cons, List.not_mem_nil, or_false, exists_eq_or_imp,
          exists_eq_left, ov]
        rw [← or_and_right, ← or_and_right]
        constructor
        · rintro ⟨h, h2⟩; exact ⟨by tauto, h2⟩
        · rintro ⟨h, h2⟩; exact ⟨by tauto, h2⟩
  · rw [C01_dfa_accepts_iff _ (Dfa.wf_of_wfB (by decide))]
    refine Dfa.lang_of_table endsA (fun q w => match q with
      | 0 => Over [s 'a', s 'b', s 'c'] w ∧ [s 'a'] <:+ w
      | 1 => Over [s 'a', s 'b', s 'c'] w ∧ (w = [] ∨ [s 'a'] <:+ w)
      | _ => False) (by decide) ?_ ?_ (by decide) w
    · intro q st h
      match q, h with
      | 0, h => cases h; simp
      | 1, h => cases h; simp [Over]
    · intro q st h e w
      have ov : Over [s 'a', s 'b', s 'c'] (e :: w) ↔ (e = s 'a' ∨ e = s 'b' ∨ e = s 'c') ∧ Over [s 'a', s 'b', s 'c'] w := by
        simp [Over]
      have hab : s 'b' ≠ s 'a' := by decide
      have hac : s 'c' ≠ s 'a' := by decide
      have key : [s 'a'] <:+ e :: w ↔ (e = s 'a' ∧ w = []) ∨ [s 'a'] <:+ w := by
        rw [List.suffix_cons_iff, List.cons.injEq]
        exact or_congr_left ⟨fun h => ⟨h.1.symm, h.2.symm⟩, fun h => ⟨h.1.symm, h.2.symm⟩⟩
      match q, h with
      | 0, h | 1, h =>
        cases h
        simp only [endsA, List.zip_cons_cons, List.zip_nil_right, List.mem_cons, List.not_mem_nil, or_false, exists_eq_or_imp,
          exists_eq_left, ov, key, reduceCtorEq, false_or]
        constructor
        · rintro ⟨⟨rfl | rfl | rfl, h⟩, h2⟩
          · exact .inl ⟨rfl, h, by tauto⟩
          · exact .inr (.inl ⟨rfl, h, by tauto⟩)
          · exact .inr (.inr ⟨rfl, h, by tauto⟩)
        · rintro (⟨rfl, h, h2⟩ | ⟨rfl, h, h2⟩ | ⟨rfl, h, h2⟩)
          · exact ⟨⟨.inl rfl, h⟩, by tauto⟩
          · exact ⟨⟨.inr (.inl rfl), h⟩, .inr h2⟩
          · exact ⟨⟨.inr (.inr rfl), h⟩, .inr h2⟩

example : Over [s 'a', s 'b', s 'c'] [s 'b', s 'c', s 'a'] ∧ [s 'b'] <+: [s 'b', s 'c', s 'a'] ∧ [s 'a'] <:+ [s 'b', s 'c', s 'a'] ∧
    ¬ [s 'b'] <+: [s 'a', s 'b'] := by decide

/-- The NFA of `nfa1.nfa`. -/
private def nfaOk : Nfa :=
  ⟨[s 'a', s 'b'], [⟨c!"ok", true, true, [2], [[1, 2], [0]]⟩, ⟨c!"fail", false, false, [2], [[0], [1]]⟩,
    ⟨c!"other", false, false, [3], [[2], []]⟩, ⟨c!"inf", false, false, [], [[2], [2]]⟩], 0⟩

private theorem load_text_nfa {cl : Str → Nat} {text : Str} {n : Nfa} (h : (Fa.nfa text).map Validate.nfa = some (.ok n)) :
    load cl text .nfa = .ok (.nfa n) := by
  obtain ⟨p, h1, h2⟩ := Option.map_eq_some_iff.1 h
  exact load_nfa_iff.2 ⟨p, n, h1, h2, rfl⟩

/-- **C89** `nfa1.nfa` describes the words with an even number of `a`s. The file `dfa1.dfa`, with the same states `ok` and `fail`, is
not the text of a DFA: it has two rows for the state `fail`. -/
theorem C89_first (cl : Str → Nat) :
    (∃ n, load cl nfa1 .nfa = .ok (.nfa n) ∧ ∀ w, n.accepts w = true ↔ EvenAs w) ∧
    load cl dfa1 .dfa = .error (.dfaCompile (.duplicateStateDefinition c!"fail")) := by
  have hw : nfaOk.WF := Nfa.wf_of_wfB (by decide)
  refine ⟨⟨nfaOk, load_text_nfa (by decide +kernel), fun w => ?_⟩, ?_⟩
  · have he : nfaOk.equivalentTo minimized.toNfa = some true := by decide +kernel
    obtain ⟨b, h6, h7⟩ := C20_nfa_equivalent_to nfaOk minimized.toNfa hw (C18_to_nfa_lang _ minimized_wf []).1
    rw [he] at h6
    rw [C02_nfa_accepts_iff _ hw, (h7.1 (Option.some.inj h6).symm).2, (C18_to_nfa_lang _ minimized_wf w).2.1, minimized_lang]
  · have h : errorOf (load cl1 dfa1 .dfa) = some (.dfaCompile (.duplicateStateDefinition c!"fail")) := by decide +kernel
    have e : load cl dfa1 .dfa = load cl1 dfa1 .dfa := rfl
    rw [e]
    cases hl : load cl1 dfa1 .dfa with
    | error x => rw [hl] at h; exact congrArg _ (Option.some.inj h)
    | ok x => rw [hl] at h; cases h

/-- The NFA of `example2.nfa`. -/
private def epsExample : Nfa :=
  ⟨[s 'a', s 'b'], [⟨c!"s₀", true, false, [], [[1], [0, 2]]⟩, ⟨c!"s₁", false, false, [2], [[4], [3]]⟩,
    ⟨c!"s₂", false, false, [], [[1, 4], [3]]⟩, ⟨c!"s₃", false, false, [5], [[4, 5], []]⟩, ⟨c!"s₄", false, false, [3], [[], [5]]⟩,
    ⟨c!"s₅", false, true, [], [[5], [5]]⟩], 0⟩

/-- The NFA of `example3.nfa`. -/
private def epsExample3 : Nfa :=
  ⟨[s 'a', s 'b'], [⟨c!"s₀", true, false, [6], [[1, 6], [0, 2]]⟩, ⟨c!"s₁", false, false, [2], [[4], [3, 6]]⟩,
    ⟨c!"s₂", false, false, [], [[1, 4], [3]]⟩, ⟨c!"s₃", false, false, [5], [[4, 5, 6], []]⟩, ⟨c!"s₄", false, false, [3], [[], [5]]⟩,
    ⟨c!"s₅", false, true, [], [[5, 6], [5]]⟩, ⟨s 'a', false, false, [6], [[6], [6]]⟩], 0⟩

/-- **C89** `example2.nfa`: determinising it gives the DFA of the comment in that file (and of `eq_example2_nfa.dfa`), up to names and
order of the states. -/
theorem C89_example2 (cl : Str → Nat) :
    ∃ n d d' φ, load cl Window.example2Nfa .nfa = .ok (.nfa n) ∧ load cl eqExample2 .dfa = .ok (.dfa d) ∧ n.toDfa = some d' ∧
      d'.Iso d φ ∧ ∀ w, n.accepts w = true ↔ d.accepts w = true := by
  have hw : epsExample.WF := Nfa.wf_of_wfB (by decide)
  obtain ⟨d', h1, h2, h3, h4, _⟩ := C19_to_dfa epsExample hw
  have h5 : epsExample.toDfa.map (fun d => (d.alphabet, d.states.map (fun s => (s.accepting, s.transitions)), d.initialState)) =
    some ([s 'a', s 'b'], [(false, [1, 2]), (false, [3, 5]), (false, [3, 4]), (true, [3, 5]), (true, [3, 4]), (true, [6, 7]),
      (true, [6, 7]), (true, [7, 7])], 0) := by decide +kernel
  rw [h1, Option.map_some, Option.some.injEq, Prod.mk.injEq, Prod.mk.injEq] at h5
  obtain ⟨h5, h6, h7⟩ := h5
  let φ : Nat → Nat := fun q => if q = 4 then 5 else if q = 5 then 4 else q
  have hlen : d'.states.length = 8 := by
    have := congrArg List.length h6
    simpa using this
  have hst : ∀ (q : Nat) (st : DfaState), d'.states[q]? = some st → [(false, [1, 2]), (false, [3, 5]), (false, [3, 4]), (true, [3, 5]), (true, [3, 4]),
      (true, [6, 7]), (true, [6, 7]), (true, [7, 7])][q]? = some (st.accepting, st.transitions) := by
    intro q st h
    rw [← h6, List.getElem?_map, h]
    rfl
  have key : ∀ q < 8, ∀ t : DfaState, incorrect.states[φ q]? = some t → [(false, [1, 2]), (false, [3, 5]), (false, [3, 4]), (true, [3, 5]),
      (true, [3, 4]), (true, [6, 7]), (true, [6, 7]), (true, [7, 7])][q]?.map (fun p => (p.1, p.2.map φ)) = some (t.accepting, t.transitions) := by
    have : ∀ q < 8, [(false, [1, 2]), (false, [3, 5]), (false, [3, 4]), (true, [3, 5]), (true, [3, 4]), (true, [6, 7]), (true, [6, 7]),
        (true, [7, 7])][q]?.map (fun p => (p.1, p.2.map φ)) = incorrect.states[φ q]?.map (fun t => (t.accepting, t.transitions)) := by decide
    intro q hq t ht
    rw [this q hq, ht]
    rfl
  have main : ∀ (q : Nat) (st t : DfaState), d'.states[q]? = some st → incorrect.states[φ q]? = some t →
      t.accepting = st.accepting ∧ t.transitions = st.transitions.map φ := by
    intro q st t h8 h9
    have hq : q < 8 := hlen ▸ (List.getElem?_eq_some_iff.1 h8).1
    have := key q hq t h9
    rw [hst q st h8] at this
    simp only [Option.map_some, Option.some.injEq, Prod.mk.injEq] at this
    exact ⟨this.1.symm, this.2.symm⟩
  have iso : d'.Iso incorrect φ := {
    alphabet := h5
    count := hlen
    maps := fun q hq => by
      have : ∀ q < 8, φ q < incorrect.states.length := by decide
      exact this q (hlen ▸ hq)
    inj := fun p hp q hq => by
      have : ∀ p < 8, ∀ q < 8, φ p = φ q → p = q := by decide
      exact this p (hlen ▸ hp) q (hlen ▸ hq)
    init := by rw [h7]; rfl
    acc := fun q st t h8 h9 => (main q st t h8 h9).1
    trans := fun q st t h8 h9 => (main q st t h8 h9).2 }
  refine ⟨epsExample, incorrect, d', φ, load_text_nfa (by decide +kernel), load_text (by decide +kernel), h1, iso, fun w => ?_⟩
  have he : epsExample.equivalentTo incorrect.toNfa = some true := by decide +kernel
  obtain ⟨b, h8, h9⟩ := C20_nfa_equivalent_to epsExample incorrect.toNfa hw (C18_to_nfa_lang _ incorrect_wf []).1
  rw [he] at h8
  rw [C02_nfa_accepts_iff _ hw, (h9.1 (Option.some.inj h8).symm).2, (C18_to_nfa_lang _ incorrect_wf w).2.1, C01_dfa_accepts_iff _ incorrect_wf]

/-- **C89** `example3.nfa`, with an additional state from which nothing is accepted, has the same language as `example2.nfa`, and
`equivalent_to` says so. -/
theorem C89_example3 (cl : Str → Nat) :
    ∃ n m, load cl Window.example2Nfa .nfa = .ok (.nfa n) ∧ load cl example3Nfa .nfa = .ok (.nfa m) ∧ n.equivalentTo m = some true ∧
      ∀ w, n.accepts w = m.accepts w := by
  have hw : epsExample.WF := Nfa.wf_of_wfB (by decide)
  have hw3 : epsExample3.WF := Nfa.wf_of_wfB (by decide)
  have he : epsExample.equivalentTo epsExample3 = some true := by decide +kernel
  refine ⟨epsExample, epsExample3, load_text_nfa (by decide +kernel), load_text_nfa (by decide +kernel), he, fun w => ?_⟩
  obtain ⟨b, h8, h9⟩ := C20_nfa_equivalent_to epsExample epsExample3 hw hw3
  rw [he] at h8
  rw [Bool.eq_iff_iff, C02_nfa_accepts_iff _ hw, C02_nfa_accepts_iff _ hw3]
  exact (h9.1 (Option.some.inj h8).symm).2 w

/-- **C89** The command `equivalence` for the example tree, with `correct.dfa` or `same.regex` as reference, wherever the files are:
every line says what the name of the file says. -/
theorem C89_tree (env : Env) (hs : Segmentation env.cl) (hb : BreaksAscii env.cl) (o : MinOrd) (ho : o.Valid) (noLog : Bool)
    (args : EquivalenceArgs) (p1 p2 p3 p4 p5 : Str)
    (href : env.read args.automata = .ok correctDfa ∧ args.inType = none ∨ env.read args.automata = .ok sameRegex ∧ args.inType = some .regex)
    (h1 : env.read p1 = .ok correctDfa) (h2 : env.read p2 = .ok incorrectDfa) (h3 : env.read p3 = .ok invalidDfa)
    (h4 : env.read p4 = .ok unparsableDfa) (h5 : env.read p5 = .ok correctMinimizedDfa)
    (htype : args.type = .dfa) (hbool : args.bool = false) (hlen : args.pathLength = none) (hf : args.files = [p1, p2, p3, p4, p5]) :
    ∃ e msg, equivalence env o noLog args = some e ∧ e.result = .ok () ∧
      outs e.lines = [p1 ++ (if args.minimized then c!": Equivalent but not minimized" else c!": Equivalent"),
        p2 ++ c!": Not Equivalent",
        p3 ++ c!": Failed to validate (State '3' does not exist (in transition from state '1'))",
        p4 ++ c!": Failed to parse (" ++ msg ++ c!")",
        p5 ++ c!": Equivalent"] := by
  obtain ⟨ref, hload, hlang, hel⟩ : ∃ ref : Automata, loadFile env args.automata (args.inType.getD args.type) = .ok ref ∧
      (∀ w, ref.Lang w ↔ EvenAs w) ∧ SameElems ref.elems [s 'a', s 'b'] := by
    unfold loadFile
    rcases href with ⟨hr, hi⟩ | ⟨hr, hi⟩
    · rw [hr, hi, htype]
      exact ⟨_, load_correct _, correct_lang, fun _ => Iff.rfl⟩
    · rw [hr, hi]
      obtain ⟨t, g1, g2, g3⟩ := load_same hs hb
      exact ⟨_, g1, g2, g3⟩
  obtain ⟨e, results, g1, g2, g3, g4, _⟩ := C48_command env o ho noLog args ref hload (fun _ => htype)
  rw [hf] at g3 g4
  obtain ⟨r1, rs1, v1, f1, rfl⟩ := List.forall₂_cons_left_iff.1 g3
  obtain ⟨r2, rs2, v2, f2, rfl⟩ := List.forall₂_cons_left_iff.1 f1
  obtain ⟨r3, rs3, v3, f3, rfl⟩ := List.forall₂_cons_left_iff.1 f2
  obtain ⟨r4, rs4, v4, f4, rfl⟩ := List.forall₂_cons_left_iff.1 f3
  obtain ⟨r5, rs5, v5, f5, rfl⟩ := List.forall₂_cons_left_iff.1 f4
  obtain rfl := List.forall₂_nil_left_iff.1 f5
  have same1 : ref.Same (.dfa correct) := ⟨hel, fun w => by rw [hlang]; exact (correct_lang w).symm⟩
  have same5 : ref.Same (.dfa minimized) := ⟨hel, fun w => by rw [hlang]; exact (minimized_lang w).symm⟩
  have same2 : ¬ ref.Same (.dfa incorrect) := by
    intro h
    have h6 : incorrect.Lang [] := (h.2 []).1 ((hlang []).2 (by unfold EvenAs; decide))
    rw [← C01_dfa_accepts_iff _ incorrect_wf] at h6
    exact absurd h6 (by decide)
  have notMin : ¬ Minimal correct := fun h => absurd (h minimized minimized_wf (fun _ => Iff.rfl)
    (fun w => by rw [minimized_lang, correct_lang])) (by decide)
  unfold Verdict at v1 v2 v3 v4 v5
  rw [h1, htype] at v1
  rw [h2, htype] at v2
  rw [h3, htype] at v3
  rw [h4, htype] at v4
  rw [h5, htype] at v5
  dsimp only at v1 v2 v3 v4 v5
  rw [load_correct] at v1
  rw [load_incorrect] at v2
  rw [load_minimized] at v5
  dsimp only at v1 v2 v5
  have e1 : r1 = if args.minimized then .notMinimized else .equivalent := by
    rcases v1 with ⟨h, _⟩ | ⟨_, ⟨h, _⟩, h'⟩ | ⟨_, h, h'⟩
    · exact absurd same1 h
    · rw [h', h]; rfl
    · rw [h']
      by_cases hm : args.minimized = true
      · exact absurd ⟨hm, fun h => notMin (h _ rfl)⟩ h
      · rw [if_neg hm]
  have e2 : r2 = .notEquivalent := by
    rcases v2 with ⟨_, h⟩ | ⟨h, _⟩ | ⟨h, _⟩
    · exact h
    · exact absurd h same2
    · exact absurd h same2
  have e5 : r5 = .equivalent := by
    rcases v5 with ⟨h, _⟩ | ⟨_, ⟨_, h⟩, _⟩ | ⟨_, _, h⟩
    · exact absurd same5 h
    · exact absurd (fun d hd => by cases hd; exact minimized_min) h
    · exact h
  have e3 : r3 = .failedToValidate (.transitionDoesNotExist c!"1" c!"3") := by
    have h : errorOf (load cl1 invalidDfa .dfa) = some (.dfaCompile (.transitionDoesNotExist c!"1" c!"3")) := by decide +kernel
    have e : load env.cl invalidDfa .dfa = load cl1 invalidDfa .dfa := rfl
    rw [e] at v3
    cases hl : load cl1 invalidDfa .dfa with
    | error x => rw [hl] at h v3; cases h; exact v3
    | ok x => rw [hl] at h; cases h
  have e4 : ∃ msg, r4 = .failedToParse msg := by
    have h : errorOf (load cl1 unparsableDfa .dfa) = some (.dfaParse ⟨[], .crLf⟩) := by decide +kernel
    have e : load env.cl unparsableDfa .dfa = load cl1 unparsableDfa .dfa := rfl
    rw [e] at v4
    cases hl : load cl1 unparsableDfa .dfa with
    | error x => rw [hl] at h v4; cases h; exact ⟨_, v4⟩
    | ok x => rw [hl] at h; cases h
  obtain ⟨msg, e4⟩ := e4
  have line : ∀ (p : Str) (r : EquivalenceResult) (l : Str), ShowsVerdict args p r l → l = p ++ (c!": " ++ verdictText r) := by
    rintro p r l ⟨pre, text, rfl, hp, _, ht⟩
    rw [ht hbool]
    rcases hp with ⟨h, _⟩ | ⟨q, h, rfl⟩
    · rw [hlen] at h; cases h
    · rw [hlen] at h; cases h
      simp
  refine ⟨e, msg, g1, g2, ?_⟩
  simp only [List.zip_cons_cons, List.zip_nil_right] at g4
  obtain ⟨l1, ls1, w1, k1, he⟩ := List.forall₂_cons_left_iff.1 g4
  obtain ⟨l2, ls2, w2, k2, rfl⟩ := List.forall₂_cons_left_iff.1 k1
  obtain ⟨l3, ls3, w3, k3, rfl⟩ := List.forall₂_cons_left_iff.1 k2
  obtain ⟨l4, ls4, w4, k4, rfl⟩ := List.forall₂_cons_left_iff.1 k3
  obtain ⟨l5, ls5, w5, k5, rfl⟩ := List.forall₂_cons_left_iff.1 k4
  obtain rfl := List.forall₂_nil_left_iff.1 k5
  rw [he, line _ _ _ w1, line _ _ _ w2, line _ _ _ w3, line _ _ _ w4, line _ _ _ w5, e1, e2, e3, e4, e5]
  cases args.minimized <;> simp [verdictText, defectText]

/-- The example tree as a file system. -/
private def treeEnv : Env :=
  ⟨fun p => if p = c!"user1/correct.dfa" then .ok correctDfa else if p = c!"user1/same.regex" then .ok sameRegex
    else if p = c!"user2/incorrect.dfa" then .ok incorrectDfa else if p = c!"user3/invalid.dfa" then .ok invalidDfa
    else if p = c!"user4/unparsable.dfa" then .ok unparsableDfa else if p = c!"user5/correct_minimized.dfa" then .ok correctMinimizedDfa
    else .error c!"No such file", cl1, fun t => t.map (fun c => [c]), 1⟩

example : ∃ e msg, equivalence treeEnv ⟨id, id, id⟩ true ⟨some .regex, .dfa, true, false, none, c!"user1/same.regex",
      [c!"user1/correct.dfa", c!"user2/incorrect.dfa", c!"user3/invalid.dfa", c!"user4/unparsable.dfa", c!"user5/correct_minimized.dfa"]⟩ = some e ∧
    e.result = .ok () ∧ outs e.lines = [c!"user1/correct.dfa: Equivalent but not minimized", c!"user2/incorrect.dfa: Not Equivalent",
      c!"user3/invalid.dfa: Failed to validate (State '3' does not exist (in transition from state '1'))",
      c!"user4/unparsable.dfa: Failed to parse (" ++ msg ++ c!")", c!"user5/correct_minimized.dfa: Equivalent"] := by
  have hid : ∀ l : List Nat, (id l).Perm l := fun l => List.Perm.refl l
  refine C89_tree treeEnv cl1_seg cl1_breaks ⟨id, id, id⟩ ⟨hid, hid, hid⟩ true ⟨some .regex, .dfa, true, false, none, c!"user1/same.regex",
    [c!"user1/correct.dfa", c!"user2/incorrect.dfa", c!"user3/invalid.dfa", c!"user4/unparsable.dfa", c!"user5/correct_minimized.dfa"]⟩
    _ _ _ _ _ (Or.inr ⟨rfl, rfl⟩) ?_ ?_ ?_ ?_ ?_ rfl rfl rfl rfl <;> rfl

/-! ## Instances of the theorems of this file -/

example := C89_first cl1
example := C89_example2 cl1
example := C89_example3 cl1

end Dandy
