import Verif.Proofs.Apart
import Verif.Proofs.ApartWords
import Verif.Proofs.Names
import Verif.Props.DfaMinimize
import Verif.Props.NfaToDfa
import Verif.Props.Words
import Verif.Props.Cli
/-! # C109: counterexamples, and how long they are -/

namespace Dandy
open Samples

/-- **C109** Testing DFAs on short words is enough: for `n` and `m` states and the same elements, `equivalent_to` says yes exactly if the two
agree about all words with at most `n + m - 2` elements. -/
theorem C109_dfa (d o : Dfa) (hd : d.WF) (ho : o.WF) (hs : SameElems d.alphabet o.alphabet) :
    d.equivalentTo o = some true ↔
      ∀ w : Word, w.length + 2 ≤ d.states.length + o.states.length → d.accepts w = o.accepts w := by
  rw [(C11_dfa_equivalent_to d o hd ho).2]
  have hacc : ∀ w, d.accepts w = o.accepts w ↔ (d.Lang w ↔ o.Lang w) := fun w => by
    rw [Bool.eq_iff_iff, C01_dfa_accepts_iff d hd, C01_dfa_accepts_iff o ho]
  simp only [hacc]
  constructor
  · exact fun h w _ => h.2 w
  · refine fun h => ⟨hs, fun w => ?_⟩
    by_contra hc
    obtain ⟨v, h1, h2⟩ := Dfa.apart hd ho hs w hc
    exact h2 (h v h1)

/-- The DFAs `oddA` (three states) and `endsB` (two states) differ, and the word of one element tells it. -/
example : oddA.equivalentTo endsB = some false ∧ oddA.states.length + endsB.states.length = 5 ∧
    oddA.accepts [] = endsB.accepts [] ∧ oddA.accepts [s 'a'] ≠ endsB.accepts [s 'a'] ∧
    ¬ ∀ w : Word, w.length + 2 ≤ oddA.states.length + endsB.states.length → oddA.accepts w = endsB.accepts w := by
  have h : oddA.equivalentTo endsB = some false := by decide +kernel
  refine ⟨h, rfl, by decide, by decide, fun hc => ?_⟩
  have := (C109_dfa oddA endsB oddA_wf endsB_wf (by intro e; simp [oddA, endsB, or_comm])).2 hc
  rw [h] at this; cases this

/-- **C109** The same for NFAs with `n` and `m` states, epsilon moves or not: `2^n + 2^m - 2` elements are enough. -/
theorem C109_nfa (n o : Nfa) (hn : n.WF) (ho : o.WF) (hs : SameElems n.alphabet o.alphabet) :
    n.equivalentTo o = some true ↔
      ∀ w : Word, w.length + 2 ≤ 2 ^ n.states.length + 2 ^ o.states.length → n.accepts w = o.accepts w := by
  obtain ⟨b, hb, hiff⟩ := C20_nfa_equivalent_to n o hn ho
  rw [hb, Option.some.injEq, hiff]
  have hacc : ∀ w, n.accepts w = o.accepts w ↔ (n.Lang w ↔ o.Lang w) := fun w => by
    rw [Bool.eq_iff_iff, C02_nfa_accepts_iff n hn, C02_nfa_accepts_iff o ho]
  simp only [hacc]
  constructor
  · exact fun h w _ => h.2 w
  · refine fun h => ⟨hs, fun w => ?_⟩
    by_contra hc
    obtain ⟨d, h1, h2, h3, h4, _⟩ := C19_to_dfa n hn
    obtain ⟨e, g1, g2, g3, g4, _⟩ := C19_to_dfa o ho
    obtain ⟨v, h5, h6⟩ := Dfa.apart h2 g2 (by rw [h3, g3]; exact hs) w (by rw [h4, g4]; exact hc)
    have := (C19_to_dfa_shape n hn d h1).2.2.2
    have := (C19_to_dfa_shape o ho e g1).2.2.2
    rw [h4, g4] at h6
    exact h6 (h v (by omega))

example : epsNfa.equivalentTo evenA = some false ∧
    ¬ ∀ w : Word, w.length + 2 ≤ 2 ^ epsNfa.states.length + 2 ^ evenA.states.length → epsNfa.accepts w = evenA.accepts w := by
  have h : epsNfa.equivalentTo evenA = some false := by decide +kernel
  refine ⟨h, fun hc => ?_⟩
  have := (C109_nfa epsNfa evenA epsNfa_wf evenA_wf (by intro e; simp [epsNfa, evenA, or_comm])).2 hc
  rw [h] at this; cases this

/-- **C109** Two states of a DFA with `n` states are in different classes of `state_equivalence_classes_idx` exactly if a word with at most
`n - 2` elements leads one of them to an accepting state and the other one not. -/
theorem C109_states (d : Dfa) (hd : d.WF) (P : List (List Nat)) (hP : d.stateEquivalenceClassesIdx = some P) (p q : Nat)
    (hp : p < d.states.length) (hq : q < d.states.length) :
    (¬ ∃ B ∈ P, p ∈ B ∧ q ∈ B) ↔
      ∃ w : Word, w.length + 2 ≤ d.states.length ∧
        ¬ ((∃ r, d.Run p w r ∧ d.Acc r) ↔ (∃ r, d.Run q w r ∧ d.Acc r)) := by
  obtain ⟨P', h1, _, h3, h4⟩ := C14_equivalence_classes d hd
  rw [hP] at h1; cases h1
  have hin : (∃ B ∈ P, p ∈ B ∧ q ∈ B) ↔ d.Indist p q := by
    constructor
    · rintro ⟨B, hB, hpB, hqB⟩
      exact (h4 B hB p hpB q hq).1 hqB
    · intro h
      have : p ∈ P.flatten := h3.mem_iff.2 (List.mem_range.2 hp)
      obtain ⟨B, hB, hpB⟩ := List.mem_flatten.1 this
      exact ⟨B, hB, hpB, (h4 B hB p hpB q hq).2 h⟩
  rw [hin]
  constructor
  · intro h
    simp only [Dfa.Indist, not_forall] at h
    obtain ⟨w, hw⟩ := h
    exact Dfa.apart_states hd hp hq w hw
  · rintro ⟨w, _, hw⟩ h
    exact hw (h w)

/-- States 0 and 3 of `redundant` (six states) are told apart by the word `a`. -/
example : ∃ P, redundant.stateEquivalenceClassesIdx = some P ∧ (¬ ∃ B ∈ P, 0 ∈ B ∧ 3 ∈ B) ∧ ∃ B ∈ P, 1 ∈ B ∧ 2 ∈ B := by
  refine ⟨(redundant.stateEquivalenceClassesIdx).getD [], by decide +kernel, by decide +kernel, by decide +kernel⟩

/-- **C109** The first word enumerated of the symmetric difference of two DFAs is the least word (by length, then by the alphabet) on which they
differ; it has at most `n + m - 2` elements. There is none exactly if `equivalent_to` says yes. -/
theorem C109_first (ord : List (Nat × Nat) → List (Nat × Nat)) (hord : ∀ l, (ord l).Perm l) (d o : Dfa) (hd : d.WF) (ho : o.WF)
    (hs : SameElems d.alphabet o.alphabet) :
    ∃ p r, Dfa.symmetricDifference ord d o = some (some p) ∧ p.toNfa.wordComponents 1 = some [r] ∧
      (r = none ↔ d.equivalentTo o = some true) ∧
      ∀ w, r = some w → d.accepts w ≠ o.accepts w ∧ w.length + 2 ≤ d.states.length + o.states.length ∧
        ∀ v, d.accepts v ≠ o.accepts v → v = w ∨ ShortLex d.alphabet w v := by
  obtain ⟨p, h1, h2, h3, h4⟩ := ((C09_dfa_set_operations ord hord d o hd ho).2 hs).2.2.2
  have hacc : ∀ w, d.accepts w ≠ o.accepts w ↔ ¬ (d.Lang w ↔ o.Lang w) := fun w => by
    rw [ne_eq, Bool.eq_iff_iff, C01_dfa_accepts_iff d hd, C01_dfa_accepts_iff o ho]
  have hN : p.toNfa.WF := (C18_to_nfa_lang p h2 []).1
  have hL : ∀ w, p.toNfa.Lang w ↔ ¬ (d.Lang w ↔ o.Lang w) := fun w => by rw [(C18_to_nfa_lang p h2 w).2.1, h4]
  have heps : ∀ s ∈ p.toNfa.states, s.epsilonTransitions = [] := by
    have := (C18_to_nfa_structure p).1
    simpa [Nfa.hasEpsilonMoves] using this
  have hal : p.toNfa.alphabet = d.alphabet := by rw [(C18_to_nfa_structure p).2.1, h3]
  obtain ⟨rs, _, hlen, _, hc, _⟩ := C32_iterators_agree p.toNfa hN heps 1
  obtain ⟨r0, rfl⟩ := List.length_eq_one_iff.1 hlen
  simp only [List.map_cons, List.map_nil] at hc
  obtain ⟨r, hr⟩ : ∃ r, p.toNfa.wordComponents 1 = some [r] := ⟨_, hc⟩
  have hgap := C31_words_no_gap p.toNfa hN 1 [r] hr
  rw [hal] at hgap
  refine ⟨p, r, h1, hr, ?_, ?_⟩
  · rw [(C11_dfa_equivalent_to d o hd ho).2]
    constructor
    · rintro rfl
      refine ⟨hs, fun w => ?_⟩
      by_contra hw
      obtain ⟨i, hi, _⟩ := (hgap.2 0 rfl).1 w ((hL w).2 hw)
      omega
    · intro h
      cases r with
      | none => rfl
      | some w =>
        have := (C29_words_sound p.toNfa hN 1 _ hr w (by simp)).1
        exact absurd (h.2 w) ((hL w).1 this)
  · rintro w rfl
    have hw := (hL w).1 (C29_words_sound p.toNfa hN 1 _ hr w (by simp)).1
    have hleast : ∀ v, ¬ (d.Lang v ↔ o.Lang v) → v = w ∨ ShortLex d.alphabet w v := by
      intro v hv
      rcases hgap.1 0 w rfl v ((hL v).2 hv) with ⟨i, hi, h⟩ | h
      · left
        obtain rfl : i = 0 := by omega
        simpa using h.symm
      · exact .inr h
    refine ⟨(hacc w).2 hw, ?_, fun v hv => hleast v ((hacc v).1 hv)⟩
    obtain ⟨v, hv1, hv2⟩ := Dfa.apart hd ho hs w hw
    have : w.length ≤ v.length := by
      rcases hleast v hv2 with rfl | h | h
      · exact le_refl _
      · omega
      · omega
    omega

/-- The first word on which `oddA` and `endsB` differ is `a`. -/
example : ∃ p, Dfa.symmetricDifference id oddA endsB = some (some p) ∧ p.toNfa.wordComponents 1 = some [some [s 'a']] := by
  refine ⟨((Dfa.symmetricDifference id oddA endsB).getD none).getD oddA, by decide +kernel, by decide +kernel⟩

/-- **C109** The program finds counterexamples: `symmetric-difference --enumerate 1` on two files of whatever types, with the same elements, shows
the least word on which they differ, or says that there is none, which is so exactly if they are equivalent. -/
theorem C109_command (env : Cli.Env) (ord : List (Nat × Nat) → List (Nat × Nat)) (hord : ∀ l, (ord l).Perm l) (o1 o2 o3 : Cli.MinOrd)
    (h1 : o1.Valid) (h2 : o2.Valid) (h3 : o3.Valid) (noLog : Bool) (args : Cli.BinaryOpArgs) (a1 a2 : Cli.Automata)
    (ha1 : Cli.Automata.loadFile env args.first args.type = .ok a1)
    (ha2 : Cli.Automata.loadFile env args.second (args.secondType.getD args.type) = .ok a2)
    (hs : SameElems a1.elems a2.elems) (he : args.enumerate = some 1) :
    ∃ e al table line rest, Cli.binaryOp env ord o1 o2 o3 noLog args .symmetricDifference = some e ∧ a1.HasAlphabet al ∧
      Cli.outs e.lines = table :: c!"First 1 words in the language of the symmetric difference:" :: line :: rest ∧
      (a1.Same a2 ∧ line = c!"(only 0 words exists in the symmetric difference)" ∨
        ∃ w, line = Cli.shown w ∧ ¬ (a1.Lang w ↔ a2.Lang w) ∧ ∀ v, ¬ (a1.Lang v ↔ a2.Lang v) → v = w ∨ ShortLex al w v) := by
  obtain ⟨e, d, table, words, cmp, g1, g2, _, _, g5, _, _, g8, _⟩ :=
    (C50_binary_op env ord hord o1 o2 o3 h1 h2 h3 noLog args .symmetricDifference a1 a2 ha1 ha2).2 hs
  rw [he] at g8
  obtain ⟨ws, hf, rfl⟩ := g8
  cases ws with
  | nil =>
    refine ⟨e, d.alphabet, table, _, cmp, g1, g5, g2, .inl ⟨⟨hs, fun w => ?_⟩, rfl⟩⟩
    by_contra hc
    rcases hf.complete w hc with h | ⟨h, _⟩
    · simp at h
    · simp at h
  | cons w ws =>
    have hnil : ws = [] := by
      have := hf.short
      simp only [List.length_cons] at this
      exact List.length_eq_zero_iff.1 (by omega)
    subst hnil
    refine ⟨e, d.alphabet, table, _, cmp, g1, g5, g2, .inr ⟨w, rfl, hf.sound w (by simp), fun v hv => ?_⟩⟩
    rcases hf.complete v hv with h | ⟨_, h⟩
    · exact .inl (by simpa using h)
    · exact .inr (h w (by simp))

/-- `dandy symmetric-difference --type nfa --second-type dfa --enumerate 1 ends.nfa odd.dfa`, and an NFA with an equivalent DFA. -/
example : (Cli.binaryOp demo List.reverse revOrd revOrd revOrd true ⟨.nfa, some .dfa, .dfa, false, some 1, c!"ends.nfa", c!"odd.dfa", none⟩
      .symmetricDifference).map (fun e => e.lines.drop 1) =
      some [.out c!"First 1 words in the language of the symmetric difference:", .out c!"a"] ∧
    (Cli.binaryOp demo List.reverse revOrd revOrd revOrd true ⟨.nfa, some .dfa, .dfa, false, some 1, c!"ends.nfa", c!"/x/big.dfa", none⟩
      .symmetricDifference).map (fun e => e.lines.drop 1) =
      some [.out c!"First 1 words in the language of the symmetric difference:", .out c!"(only 0 words exists in the symmetric difference)"] := by
  decide +kernel

/-- **C109** Enumerating tells automata apart: two NFAs without epsilon moves over the same elements in the same order are equivalent exactly if
the iterators over their words yield the same at each call. -/
theorem C109_words (n o : Nfa) (hn : n.WF) (ho : o.WF) (hen : ∀ s ∈ n.states, s.epsilonTransitions = [])
    (heo : ∀ s ∈ o.states, s.epsilonTransitions = []) (ha : n.alphabet = o.alphabet) :
    n.equivalentTo o = some true ↔ ∀ k, n.wordComponents k = o.wordComponents k := by
  obtain ⟨b, hb, hiff⟩ := C20_nfa_equivalent_to n o hn ho
  rw [hb, Option.some.injEq, hiff]
  constructor
  · exact fun h k => wordComponents_congr hn ho hen heo ha h.2 k
  · refine fun h => ⟨by rw [ha]; intro e; rfl, fun w => ⟨fun hw => ?_, fun hw => ?_⟩⟩
    · obtain ⟨k, rs, h1, h2⟩ := C31_words_complete n hn hen w hw
      exact (C29_words_sound o ho k rs (h k ▸ h1) w h2).1
    · obtain ⟨k, rs, h1, h2⟩ := C31_words_complete o ho heo w hw
      exact (C29_words_sound n hn k rs (h k ▸ h1) w h2).1

/-- **C109** It is enough to compare finitely many words: DFAs with `n` and `m` states over the same `a` elements in the same order are
equivalent exactly if their first `1 + a + … + a^(n+m-2)` items are the same. -/
theorem C109_first_words (d o : Dfa) (hd : d.WF) (ho : o.WF) (ha : d.alphabet = o.alphabet) (k : Nat)
    (hk : ∑ i ∈ Finset.range (d.states.length + o.states.length - 1), d.alphabet.length ^ i ≤ k) :
    d.equivalentTo o = some true ↔ d.toNfa.wordComponents k = o.toNfa.wordComponents k := by
  have hs : SameElems d.alphabet o.alphabet := by rw [ha]; intro e; rfl
  have hN : ∀ x : Dfa, x.WF → x.toNfa.WF ∧ (∀ w, x.toNfa.Lang w ↔ x.Lang w) ∧ ∀ s ∈ x.toNfa.states, s.epsilonTransitions = [] := by
    intro x hx
    refine ⟨(C18_to_nfa_lang x hx []).1, fun w => (C18_to_nfa_lang x hx w).2.1, ?_⟩
    have := (C18_to_nfa_structure x).1
    simpa [Nfa.hasEpsilonMoves] using this
  obtain ⟨d1, d2, d3⟩ := hN d hd
  obtain ⟨o1, o2, o3⟩ := hN o ho
  have hal : d.toNfa.alphabet = o.toNfa.alphabet := by rw [(C18_to_nfa_structure d).2.1, (C18_to_nfa_structure o).2.1, ha]
  constructor
  · intro h
    have hl := ((C11_dfa_equivalent_to d o hd ho).2.1 h).2
    exact wordComponents_congr d1 o1 d3 o3 hal (fun w => by rw [d2, o2, hl]) k
  · intro h
    obtain ⟨ws, m, g1, g2, g3⟩ := wordComponents_first d1 d3 k
    obtain ⟨vs, m', f1, f2, f3⟩ := wordComponents_first o1 o3 k
    rw [g1, f1, Option.some.injEq] at h
    obtain rfl := items_inj h
    rw [(C18_to_nfa_structure d).2.1] at g3
    rw [(C18_to_nfa_structure o).2.1] at f3
    rw [C109_dfa d o hd ho hs]
    intro w hw
    rw [Bool.eq_iff_iff, C01_dfa_accepts_iff d hd, C01_dfa_accepts_iff o ho]
    constructor
    · intro h
      have := mem_first hd.alphabet_nodup (fun w hw => Dfa.over_of_lang hd ((d2 w).1 hw)) g3 hk ((d2 w).2 h) (by omega)
      exact (o2 w).1 (f3.sound w this)
    · intro h
      have := mem_first ho.alphabet_nodup (fun w hw => Dfa.over_of_lang ho ((o2 w).1 hw)) f3 (by rw [← ha]; exact hk) ((o2 w).2 h) (by omega)
      exact (d2 w).1 (g3.sound w this)

/-- `oddA` and its complement: the first two items differ already; `oddA` and the minimised `oddA`: all items are the same, the first 15 suffice. -/
example : oddA.toNfa.wordComponents 2 = some [some [s 'a'], some [s 'a', s 'b']] ∧
    oddA.invert.toNfa.wordComponents 2 = some [some [], some [s 'b']] ∧ oddA.equivalentTo oddA.invert = some false ∧
    ∃ m, oddA.minimize id id id = some m ∧ m.states.length = 2 ∧ oddA.equivalentTo m = some true ∧
      oddA.toNfa.wordComponents 15 = m.toNfa.wordComponents 15 ∧
      ∑ i ∈ Finset.range (oddA.states.length + m.states.length - 1), oddA.alphabet.length ^ i = 15 := by
  refine ⟨by decide +kernel, by decide +kernel, by decide +kernel, (oddA.minimize id id id).getD oddA, by decide +kernel, by decide +kernel,
    by decide +kernel, by decide +kernel, by decide +kernel⟩

/-! ## The bound cannot be improved -/

/-- The DFA with one element, `n` states in a row, and an arrow from the last one to the state `back`. -/
def lasso (n back : Nat) (acc : Nat → Bool) : Dfa where
  alphabet := [s 'a']
  states := (List.range n).map (fun i => ⟨numStr i, decide (i = 0), acc i, [if i + 1 = n then back else i + 1]⟩)
  initialState := 0

theorem lasso_wf {n back : Nat} {acc : Nat → Bool} (h : back < n) : (lasso n back acc).WF where
  alphabet_nodup := by simp [lasso]
  names_nodup := by
    simp only [lasso, List.map_map]
    exact List.Nodup.map (fun _ _ h => numStr_inj h) List.nodup_range
  row_len := by simp [lasso]
  targets := by
    intro st hst t ht
    simp only [lasso, List.mem_map, List.mem_range, List.length_map, List.length_range] at hst ⊢
    obtain ⟨i, hi, rfl⟩ := hst
    simp only [List.mem_singleton] at ht
    subst ht
    split <;> omega
  init_lt := by simp [lasso]; omega
  init_flag := by
    intro i st hi
    simp only [lasso, List.getElem?_map, Option.map_eq_some_iff] at hi ⊢
    obtain ⟨j, hj, rfl⟩ := hi
    have hj := List.getElem?_eq_some_iff.1 hj
    obtain ⟨_, hj⟩ := hj
    simp only [List.getElem_range] at hj
    subst hj
    simp

theorem lasso_run {n back : Nat} {acc : Nat → Bool} {i : Nat} (hi : i < n) (k : Nat) :
    (lasso n back acc).runE i (List.replicate (k + 1) (s 'a')) =
      (lasso n back acc).runE (if i + 1 = n then back else i + 1) (List.replicate k (s 'a')) := by
  have : (lasso n back acc).nxt i (s 'a') = some (if i + 1 = n then back else i + 1) := by
    simp [Dfa.nxt, Dfa.state, lasso, revGet, revGetFrom, hi]
  simp only [List.replicate_succ, Dfa.runE, this, Option.bind_some]

theorem lasso_lang {n back : Nat} {acc : Nat → Bool} (h : back < n) (k q : Nat)
    (hr : (lasso n back acc).runE 0 (List.replicate k (s 'a')) = some q) :
    (lasso n back acc).accepts (List.replicate k (s 'a')) = acc q := by
  have hq : q < n := by
    have := Dfa.runE_lt (lasso_wf (acc := acc) h) (q := 0) (by simp [lasso]; omega) hr
    simpa [lasso] using this
  rw [Bool.eq_iff_iff, C01_dfa_accepts_iff _ (lasso_wf h), Dfa.lang_iff (lasso_wf h)]
  have : (lasso n back acc).initialState = 0 := rfl
  rw [this, hr]
  simp [Dfa.state, lasso, hq]

theorem lasso_tail {n back : Nat} {acc : Nat → Bool} : ∀ (k i : Nat), i + k < n →
    (lasso n back acc).runE i (List.replicate k (s 'a')) = some (i + k)
  | 0, i, _ => rfl
  | k + 1, i, h => by
    rw [lasso_run (by omega), if_neg (by omega), lasso_tail k (i + 1) (by omega)]
    congr 1; omega

theorem lasso_round {n back : Nat} {acc : Nat → Bool} (hn : 0 < n) (j : Nat) :
    (lasso n back acc).runE 0 (List.replicate (n + j) (s 'a')) = (lasso n back acc).runE back (List.replicate j (s 'a')) := by
  have h : n + j = (n - 1) + (j + 1) := by omega
  rw [h, List.replicate_add, Dfa.runE_append, lasso_tail (n - 1) 0 (by omega), Option.bind_some, lasso_run (by omega), if_pos (by omega)]

/-- **C109** The bound cannot be improved: for all `2 ≤ m ≤ n` there are DFAs with `n` and `m` states over the same single element which agree
about all words with fewer than `n + m - 2` elements, and not about the word with `n + m - 2`. -/
theorem C109_optimal (m n : Nat) (hm : 2 ≤ m) (hn : m ≤ n) : ∃ d o : Dfa, d.WF ∧ o.WF ∧ d.alphabet = o.alphabet ∧
    d.states.length = n ∧ o.states.length = m ∧ (∀ w : Word, w.length + 2 < n + m → d.accepts w = o.accepts w) ∧
    ∃ w : Word, w.length + 2 = n + m ∧ d.accepts w ≠ o.accepts w := by
  let d := lasso n (n - (m - 1)) (fun i => decide (i % m = (n - 1) % m))
  let o := lasso m 0 (fun i => decide (i % m = (n - 1) % m))
  have hd : d.WF := lasso_wf (by omega)
  have ho : o.WF := lasso_wf (by omega)
  have hrun : ∀ k, o.runE 0 (List.replicate k (s 'a')) = some (k % m) := by
    intro k
    induction k using Nat.strong_induction_on with
    | _ k ih =>
      by_cases hk : k < m
      · have := lasso_tail (n := m) (back := 0) (acc := fun i => decide (i % m = (n - 1) % m)) k 0 (by omega)
        rw [Nat.mod_eq_of_lt hk]; simpa using this
      · obtain ⟨j, rfl⟩ : ∃ j, k = m + j := ⟨k - m, by omega⟩
        have h1 := lasso_round (n := m) (back := 0) (acc := fun i => decide (i % m = (n - 1) % m)) (by omega) j
        rw [Nat.add_mod_left, ← ih j (by omega)]
        exact h1
  have hoacc : ∀ k, o.accepts (List.replicate k (s 'a')) = decide (k % m = (n - 1) % m) := by
    intro k
    have := lasso_lang (n := m) (back := 0) (acc := fun i => decide (i % m = (n - 1) % m)) (by omega) k _ (hrun k)
    rw [Nat.mod_mod] at this
    exact this
  have hdacc1 : ∀ k < n, d.accepts (List.replicate k (s 'a')) = decide (k % m = (n - 1) % m) := by
    intro k hk
    have h1 := lasso_tail (n := n) (back := n - (m - 1)) (acc := fun i => decide (i % m = (n - 1) % m)) k 0 (by omega)
    rw [Nat.zero_add] at h1
    exact lasso_lang (by omega) k _ h1
  have hdacc2 : ∀ j, j + 2 ≤ m → d.accepts (List.replicate (n + j) (s 'a')) = decide ((n - (m - 1) + j) % m = (n - 1) % m) := by
    intro j hj
    have h1 := lasso_round (n := n) (back := n - (m - 1)) (acc := fun i => decide (i % m = (n - 1) % m)) (by omega) j
    rw [lasso_tail j _ (by omega)] at h1
    exact lasso_lang (by omega) (n + j) _ h1
  have hmod : ∀ x y, x < y → y < x + m → x % m ≠ y % m := by
    intro x y h1 h2 h
    have h3 := (Nat.modEq_iff_dvd' (le_of_lt h1)).1 h
    have := Nat.le_of_dvd (by omega) h3
    omega
  refine ⟨d, o, hd, ho, rfl, by simp [d, lasso], by simp [o, lasso], ?_, List.replicate (n + (m - 2)) (s 'a'), by simp; omega, ?_⟩
  · intro w hw
    by_cases hall : ∀ e ∈ w, e = s 'a'
    · rw [List.eq_replicate_of_mem hall]
      rw [hoacc]
      by_cases hk : w.length < n
      · exact hdacc1 _ hk
      · obtain ⟨j, hj⟩ : ∃ j, w.length = n + j := ⟨w.length - n, by omega⟩
        rw [hj, hdacc2 j (by omega)]
        have h1 := hmod (n - (m - 1) + j) (n - 1) (by omega) (by omega)
        have h2 := hmod (n - 1) (n + j) (by omega) (by omega)
        rw [decide_eq_false h1, decide_eq_false (fun h => h2 h.symm)]
    · simp only [not_forall] at hall
      obtain ⟨e, he, hne⟩ := hall
      rw [C01_dfa_rejects_foreign d hd w e he (by simpa [d, lasso] using hne),
        C01_dfa_rejects_foreign o ho w e he (by simpa [o, lasso] using hne)]
  · rw [hoacc, hdacc2 (m - 2) (by omega)]
    have h1 : n - (m - 1) + (m - 2) = n - 1 := by omega
    rw [h1]
    have h2 := hmod (n - 1) (n + (m - 2)) (by omega) (by omega)
    simp [Ne.symm h2]

/-- For instance, with two and three states: the words of up to two elements do not tell these DFAs apart, three elements do. -/
example : ∃ d o : Dfa, d.states.length = 3 ∧ o.states.length = 2 ∧ d.equivalentTo o = some false ∧
    ∀ w : Word, w.length ≤ 2 → d.accepts w = o.accepts w := by
  obtain ⟨d, o, hd, ho, ha, h1, h2, h3, w, hw, hne⟩ := C109_optimal 2 3 (le_refl _) (by omega)
  refine ⟨d, o, h1, h2, ?_, fun v hv => h3 v (by omega)⟩
  obtain ⟨⟨b, hb⟩, _⟩ := C11_dfa_equivalent_to d o hd ho
  cases b with
  | false => exact hb
  | true =>
    have := (C109_dfa d o hd ho (by rw [ha]; intro e; rfl)).1 hb w (by omega)
    exact absurd this hne

/-! ## Instances of the theorems of this file -/

example := C109_words Samples.evenA Samples.evenA Samples.evenA_wf Samples.evenA_wf (by decide) (by decide) rfl

end Dandy
