import Verif.Spec.Cli
import Verif.Props.DfaProduct
import Verif.Props.DfaMinimize
import Verif.Props.NfaToDfa
import Verif.Props.NfaEps
import Verif.Props.NfaEvaluator
import Verif.Props.Words
import Verif.Props.Regex
import Verif.Props.Validate
import Verif.Props.Tables
import Verif.Proofs.RegexErrors
import Mathlib.Tactic.Tauto
/-! # Lemmas about the command line tool -/

namespace Dandy
namespace Cli
open RegexTree

theorem MinOrd.Valid.minimize {o : MinOrd} (ho : o.Valid) {d : Dfa} (hd : d.WF) :
    ∃ m, d.minimize o.u o.m o.k = some m ∧ m.WF ∧ m.alphabet = d.alphabet ∧ (∀ w, m.Lang w ↔ d.Lang w) ∧ Minimal m := by
  obtain ⟨m, h1, h2, h3, h4, h5⟩ := C16_minimize o.u o.m o.k ho.u ho.m ho.k d hd
  refine ⟨m, h1, h2, h3, h4, ?_⟩
  intro x hx hs hl
  rw [h3] at hs
  exact h5 x hx hs (fun w => (hl w).trans (h4 w))

namespace Automata

theorem regex_alphabet (t : RegexTree) : SameElems (toNfa t).alphabet t.graphemes := (C35_to_nfa_alphabet t).1

theorem regex_lang (t : RegexTree) (w : Word) : (toNfa t).Lang w ↔ Matches t w := by
  rw [← C02_nfa_accepts_iff _ (C35_to_nfa_valid t), C34_to_nfa_accepts]

theorem intoNfa_spec {a : Automata} (ha : a.Valid) :
    a.intoNfa.1.WF ∧ a.HasAlphabet a.intoNfa.1.alphabet ∧ SameElems a.intoNfa.1.alphabet a.elems ∧
      (∀ w, a.intoNfa.1.Lang w ↔ a.Lang w) ∧ (a.intoNfa.2 = true ↔ a.getType ≠ .nfa) := by
  cases a with
  | dfa d =>
    have h := C18_to_nfa_structure d
    refine ⟨(C18_to_nfa_lang d ha []).1, h.2.1, ?_, fun w => (C18_to_nfa_lang d ha w).2.1, by simp [intoNfa, getType]⟩
    show SameElems d.toNfa.alphabet d.alphabet
    rw [h.2.1]; exact fun e => Iff.rfl
  | nfa n => exact ⟨ha, rfl, fun e => Iff.rfl, fun w => Iff.rfl, by simp [intoNfa, getType]⟩
  | regex t =>
    have h := C35_to_nfa_alphabet t
    exact ⟨C35_to_nfa_valid t, ⟨h.2.1, h.1, h.2.2⟩, regex_alphabet t, regex_lang t, by simp [intoNfa, getType]⟩

theorem intoDfa_spec {a : Automata} (ha : a.Valid) :
    ∃ d c, a.intoDfa = some (d, c) ∧ d.WF ∧ a.HasAlphabet d.alphabet ∧ SameElems d.alphabet a.elems ∧
      (∀ w, d.Lang w ↔ a.Lang w) ∧ (c = true ↔ a.getType ≠ .dfa) := by
  cases a with
  | dfa d => exact ⟨d, false, rfl, ha, rfl, fun e => Iff.rfl, fun w => Iff.rfl, by simp [getType]⟩
  | nfa n =>
    obtain ⟨d, h1, h2, h3, h4, _⟩ := C19_to_dfa n ha
    refine ⟨d, true, by simp [intoDfa, h1], h2, h3, ?_, h4, by simp [getType]⟩
    show SameElems d.alphabet n.alphabet
    rw [h3]; exact fun e => Iff.rfl
  | regex t =>
    obtain ⟨d, h1, h2, h3, h4, _⟩ := C19_to_dfa t.toNfa (C35_to_nfa_valid t)
    have h := C35_to_nfa_alphabet t
    refine ⟨d, true, by simp [intoDfa, h1], h2, ?_, ?_, fun w => (h4 w).trans (regex_lang t w), by simp [getType]⟩
    · rw [h3]; exact ⟨h.2.1, h.1, h.2.2⟩
    · rw [h3]; exact regex_alphabet t

theorem SameElems.symm' {a b : List Str} (h : SameElems a b) : SameElems b a := fun e => (h e).symm

theorem SameElems.trans' {a b c : List Str} (h : SameElems a b) (h' : SameElems b c) : SameElems a c :=
  fun e => (h e).trans (h' e)

theorem Same.congr {a b a' b' : Automata} (h1 : SameElems a.elems a'.elems) (h2 : SameElems b.elems b'.elems)
    (h3 : ∀ w, a.Lang w ↔ a'.Lang w) (h4 : ∀ w, b.Lang w ↔ b'.Lang w) : a.Same b ↔ a'.Same b' := by
  constructor
  · rintro ⟨h, h'⟩
    exact ⟨fun e => ((h1 e).symm.trans (h e)).trans (h2 e), fun w => ((h3 w).symm.trans (h' w)).trans (h4 w)⟩
  · rintro ⟨h, h'⟩
    exact ⟨fun e => ((h1 e).trans (h e)).trans (h2 e).symm, fun w => ((h3 w).trans (h' w)).trans (h4 w).symm⟩

/-- The verdict `if b then equivalent else notEquivalent`. -/
theorem dfa_verdict {d1 d2 : Dfa} (h1 : d1.WF) (h2 : d2.WF) :
    ∃ b, d1.equivalentTo d2 = some b ∧ (b = true ↔ (dfa d1).Same (dfa d2)) := by
  obtain ⟨⟨b, hb⟩, h⟩ := C11_dfa_equivalent_to d1 d2 h1 h2
  refine ⟨b, hb, ?_⟩
  rw [hb] at h
  simpa [Same, elems, Lang] using h

theorem testEquivalence_spec {a b : Automata} (ha : a.Valid) (hb : b.Valid) (m : Bool) :
    ∃ r, a.testEquivalence b m = some r ∧
      ((¬ a.Same b ∧ r = .notEquivalent) ∨
       (a.Same b ∧ (m = true ∧ ∃ d1 d2, a = dfa d1 ∧ b = dfa d2 ∧ d1.states.length ≠ d2.states.length) ∧ r = .notMinimized) ∨
       (a.Same b ∧ ¬ (m = true ∧ ∃ d1 d2, a = dfa d1 ∧ b = dfa d2 ∧ d1.states.length ≠ d2.states.length) ∧ r = .equivalent)) := by
  have via : ∀ (d1 d2 : Dfa), d1.WF → d2.WF → (a.Same b ↔ (dfa d1).Same (dfa d2)) →
      ¬ (∃ d1 d2, a = dfa d1 ∧ b = dfa d2 ∧ d1.states.length ≠ d2.states.length) →
      ∃ r, (do if ← d1.equivalentTo d2 then return .equivalent else return .notEquivalent : Option EquivalenceResult) = some r ∧
      ((¬ a.Same b ∧ r = .notEquivalent) ∨
       (a.Same b ∧ (m = true ∧ ∃ d1 d2, a = dfa d1 ∧ b = dfa d2 ∧ d1.states.length ≠ d2.states.length) ∧ r = .notMinimized) ∨
       (a.Same b ∧ ¬ (m = true ∧ ∃ d1 d2, a = dfa d1 ∧ b = dfa d2 ∧ d1.states.length ≠ d2.states.length) ∧ r = .equivalent)) := by
    intro d1 d2 h1 h2 hs hn
    obtain ⟨x, hx, hx'⟩ := dfa_verdict h1 h2
    rw [hx]
    cases x with
    | true => exact ⟨.equivalent, rfl, Or.inr (Or.inr ⟨hs.2 (hx'.1 rfl), fun h => hn h.2, rfl⟩)⟩
    | false => exact ⟨.notEquivalent, rfl, Or.inl ⟨fun h => by simpa using hx'.2 (hs.1 h), rfl⟩⟩
  cases a with
  | dfa d1 =>
    cases b with
    | dfa d2 =>
      obtain ⟨x, hx, hx'⟩ := dfa_verdict (d1 := d1) (d2 := d2) ha hb
      simp only [testEquivalence, hx]
      cases x with
      | true =>
        by_cases hm : (m && d1.states.length != d2.states.length) = true
        · refine ⟨.notMinimized, by simp [hm], Or.inr (Or.inl ⟨hx'.1 rfl, ?_, rfl⟩)⟩
          simp only [Bool.and_eq_true, bne_iff_ne, ne_eq] at hm
          exact ⟨hm.1, d1, d2, rfl, rfl, hm.2⟩
        · refine ⟨.equivalent, by simp [hm], Or.inr (Or.inr ⟨hx'.1 rfl, ?_, rfl⟩)⟩
          rintro ⟨h1, e1, e2, h2, h3, h4⟩
          cases h2; cases h3
          simp [h1, h4] at hm
      | false => exact ⟨.notEquivalent, rfl, Or.inl ⟨fun h => by simpa using hx'.2 h, rfl⟩⟩
    | nfa n =>
      obtain ⟨d2, c, h1, h2, _, h3, h4, _⟩ := intoDfa_spec hb
      simp only [testEquivalence, h1]
      exact via d1 d2 ha h2 (Same.congr (fun _ => Iff.rfl) (fun e => (h3 e).symm) (fun _ => Iff.rfl) (fun w => (h4 w).symm))
        (by rintro ⟨_, _, _, h, _⟩; cases h)
    | regex t =>
      obtain ⟨d2, c, h1, h2, _, h3, h4, _⟩ := intoDfa_spec hb
      simp only [testEquivalence, h1]
      exact via d1 d2 ha h2 (Same.congr (fun _ => Iff.rfl) (fun e => (h3 e).symm) (fun _ => Iff.rfl) (fun w => (h4 w).symm))
        (by rintro ⟨_, _, _, h, _⟩; cases h)
  | nfa n =>
    obtain ⟨h2, _, h3, h4, _⟩ := intoNfa_spec hb
    obtain ⟨x, hx, hx'⟩ := C20_nfa_equivalent_to n b.intoNfa.1 ha h2
    have hs : (nfa n).Same b ↔ (nfa n).Same (nfa b.intoNfa.1) :=
      Same.congr (fun _ => Iff.rfl) (fun e => (h3 e).symm) (fun _ => Iff.rfl) (fun w => (h4 w).symm)
    have hx'' : x = true ↔ (nfa n).Same b := hx'.trans hs.symm
    simp only [testEquivalence, hx]
    cases x with
    | true => exact ⟨.equivalent, rfl, Or.inr (Or.inr ⟨hx''.1 rfl, (by rintro ⟨_, _, _, h, _⟩; cases h), rfl⟩)⟩
    | false => exact ⟨.notEquivalent, rfl, Or.inl ⟨fun h => by simpa using hx''.2 h, rfl⟩⟩
  | regex t =>
    obtain ⟨d1, c1, g1, g2, _, g3, g4, _⟩ := intoDfa_spec ha
    obtain ⟨d2, c, h1, h2, _, h3, h4, _⟩ := intoDfa_spec hb
    simp only [testEquivalence, g1, h1]
    exact via d1 d2 g2 h2 (Same.congr (fun e => (g3 e).symm) (fun e => (h3 e).symm) (fun w => (g4 w).symm) (fun w => (h4 w).symm))
      (by rintro ⟨_, _, h, _⟩; cases h)

theorem load_dfa_iff {cl : Str → Nat} {text : Str} {a : Automata} :
    load cl text .dfa = .ok a ↔ ∃ p d, Fa.dfa text = some p ∧ Validate.dfa p = .ok d ∧ a = dfa d := by
  unfold load
  simp only [← FaE.dfa_ok]
  generalize FaE.dfa text = x
  cases x with
  | error e => simp
  | ok p =>
    dsimp only
    cases h : Validate.dfa p with
    | error e => simp [h]
    | ok d => simp [h, eq_comm]

theorem load_nfa_iff {cl : Str → Nat} {text : Str} {a : Automata} :
    load cl text .nfa = .ok a ↔ ∃ p n, Fa.nfa text = some p ∧ Validate.nfa p = .ok n ∧ a = nfa n := by
  unfold load
  simp only [← FaE.nfa_ok]
  generalize FaE.nfa text = x
  cases x with
  | error e => simp
  | ok p =>
    dsimp only
    cases h : Validate.nfa p with
    | error e => simp [h]
    | ok d => simp [h, eq_comm]

theorem load_regex_iff {cl : Str → Nat} {text : Str} {a : Automata} :
    load cl text .regex = .ok a ↔ ∃ t, RegexParser.regex cl text = some t ∧ a = regex t := by
  unfold load
  simp only [← RegexE.regex_ok]
  generalize RegexE.regex cl text = x
  cases x with
  | error e => simp
  | ok t => simp [eq_comm]

theorem load_valid {cl : Str → Nat} {text : Str} {ty : AutomataType} {a : Automata} (h : load cl text ty = .ok a) :
    a.Valid ∧ a.getType = ty := by
  cases ty with
  | dfa =>
    obtain ⟨p, d, _, hd, rfl⟩ := load_dfa_iff.1 h
    exact ⟨(C38_content _ _ hd).2.1, rfl⟩
  | nfa =>
    obtain ⟨p, d, _, hd, rfl⟩ := load_nfa_iff.1 h
    exact ⟨(C39_content _ _ hd).2.1, rfl⟩
  | regex =>
    obtain ⟨t, _, rfl⟩ := load_regex_iff.1 h
    exact ⟨trivial, rfl⟩

theorem loadFile_valid {env : Env} {path : Str} {ty : AutomataType} {a : Automata} (h : loadFile env path ty = .ok a) :
    a.Valid ∧ a.getType = ty := by
  unfold loadFile at h
  split at h
  · cases h
  · exact load_valid h

end Automata

/-! ## Words -/

theorem options_split {α : Type} (l : List (Option α)) (h : ∀ j : Nat, l[j]? = some none → ∀ i : Nat, j ≤ i → i < l.length → l[i]? = some none) :
    ∃ k, l = ((l.takeWhile Option.isSome).filterMap id).map some ++ List.replicate k none := by
  induction l with
  | nil => exact ⟨0, rfl⟩
  | cons x l ih =>
    cases x with
    | none =>
      refine ⟨l.length + 1, ?_⟩
      simp only [List.takeWhile_cons, Option.isSome_none, Bool.false_eq_true, ↓reduceIte, List.filterMap_nil, List.map_nil,
        List.nil_append]
      apply List.ext_getElem?
      intro i
      by_cases hi : i < (none :: l).length
      · rw [h 0 rfl i (Nat.zero_le _) hi, List.getElem?_replicate]
        simp only [List.length_cons] at hi
        simp [hi]
      · rw [List.getElem?_eq_none (by omega), List.getElem?_eq_none (by simpa using hi)]
    | some a =>
      obtain ⟨k, hk⟩ := ih (fun j hj i hji hi => by
        have := h (j + 1) (by simpa using hj) (i + 1) (by omega) (by simpa using hi)
        simpa using this)
      refine ⟨k, ?_⟩
      simp only [List.takeWhile_cons, Option.isSome_some, ↓reduceIte, List.filterMap_cons, id, List.map_cons, List.cons_append]
      exact congrArg _ hk

theorem takeWhile_map_isSome {α β : Type} (f : α → β) (l : List (Option α)) :
    ((l.map (Option.map f)).takeWhile Option.isSome).filterMap id = ((l.takeWhile Option.isSome).filterMap id).map f := by
  induction l with
  | nil => rfl
  | cons x l ih =>
    cases x with
    | none => rfl
    | some a =>
      simp only [List.map_cons, Option.map_some, List.takeWhile_cons, Option.isSome_some, ↓reduceIte, List.filterMap_cons, id]
      exact congrArg _ ih

theorem takeWords_spec {n : Nfa} (hn : n.WF) (he : ∀ s ∈ n.states, s.epsilonTransitions = []) (k : Nat) :
    ∃ ws, takeWords n k = some (ws.map List.flatten) ∧ FirstWords n.alphabet n.Lang k ws := by
  obtain ⟨rs, _, hlen, _, h1, h2⟩ := C32_iterators_agree n hn he k
  let cs := rs.map (Option.map (fun w => w.map (fun a => n.alphabet.getD a [])))
  have hcs : n.wordComponents k = some cs := h1
  have hclen : cs.length = k := by simp [cs, hlen]
  have hgap := C31_words_no_gap n hn k cs hcs
  obtain ⟨m, hm⟩ := options_split cs (fun j hj i hji hi => (hgap.2 j hj).2 i hji (hclen ▸ hi))
  let ws := (cs.takeWhile Option.isSome).filterMap id
  have hm' : cs = ws.map some ++ List.replicate m none := hm
  have hget : ∀ (i : Nat) (w : Word), ws[i]? = some w ↔ cs[i]? = some (some w) := by
    intro i w
    rw [hm']
    by_cases hi : i < ws.length
    · rw [List.getElem?_append_left (by simpa using hi)]
      simp
    · rw [List.getElem?_eq_none (by omega), List.getElem?_append_right (by simpa using Nat.le_of_not_lt hi), List.getElem?_replicate]
      split <;> simp
  have hk : ws.length + m = k := by rw [← hclen, hm']; simp
  refine ⟨ws, ?_, ?_, ?_, ?_, ?_⟩
  · unfold takeWords
    rw [h2]
    show some _ = _
    congr 1
    have e : rs.map (Option.map (fun w => (w.map (fun a => n.alphabet.getD a [])).flatten)) = cs.map (Option.map List.flatten) := by
      simp [cs, Function.comp_def]
    rw [e, takeWhile_map_isSome]
  · intro w hw
    obtain ⟨i, hi⟩ := List.mem_iff_getElem?.1 hw
    exact (C29_words_sound n hn k cs hcs w (List.mem_of_getElem? ((hget i w).1 hi))).1
  · rw [List.pairwise_iff_getElem]
    intro i j hi hj hij
    have hj' := (hget j _).1 (List.getElem?_eq_getElem hj)
    obtain ⟨p, hp, hs⟩ := C30_words_increasing n hn k cs hcs i j hij _ hj'
    have hi' := (hget i _).2 hp
    rw [List.getElem?_eq_getElem hi] at hi'
    cases hi'
    exact hs
  · omega
  · intro v hv
    by_cases hm0 : m = 0
    · by_cases hmem : v ∈ ws
      · exact Or.inl hmem
      · refine Or.inr ⟨by omega, ?_⟩
        intro w hw
        obtain ⟨i, hi⟩ := List.mem_iff_getElem?.1 hw
        rcases hgap.1 i w ((hget i w).1 hi) v hv with ⟨j, _, hj⟩ | h
        · exact absurd (List.mem_of_getElem? ((hget j v).2 hj)) hmem
        · exact h
    · left
      have hnone : cs[ws.length]? = some none := by
        rw [hm', List.getElem?_append_right (by simp)]
        simp only [List.length_map, Nat.sub_self, List.getElem?_replicate]
        rw [if_pos (by omega)]
      obtain ⟨i, _, hi⟩ := (hgap.2 _ hnone).1 v hv
      exact List.mem_of_getElem? ((hget i v).2 hi)

theorem wordLine_flatten (w : Word) : wordLine w.flatten = .out (shown w) := by
  unfold wordLine shown
  simp only [List.isEmpty_iff]

theorem FirstWords.congr {al : List Str} {L L' : Word → Prop} {n : Nat} {ws : List Word} (h : ∀ w, L w ↔ L' w)
    (hf : FirstWords al L n ws) : FirstWords al L' n ws :=
  ⟨fun w hw => (h w).1 (hf.sound w hw), hf.sorted, hf.short, fun v hv => hf.complete v ((h v).2 hv)⟩

/-! ## Lines -/

theorem splitInclusive_append {l rest : Str} (h : '\n' ∉ l) : splitInclusive (l ++ '\n' :: rest) = (l ++ ['\n']) :: splitInclusive rest := by
  induction l with
  | nil => simp [splitInclusive]
  | cons c l ih =>
    simp only [List.mem_cons, not_or] at h
    simp only [List.cons_append, splitInclusive, ih h.2, if_neg (Ne.symm h.1)]

theorem splitInclusive_last {l : Str} (h : '\n' ∉ l) (hne : l ≠ []) : splitInclusive l = [l] := by
  induction l with
  | nil => exact absurd rfl hne
  | cons c l ih =>
    simp only [List.mem_cons, not_or] at h
    cases l with
    | nil => simp [splitInclusive, Ne.symm h.1]
    | cons d l =>
      have := ih h.2 (by simp)
      rw [splitInclusive, this, if_neg (Ne.symm h.1)]

theorem stripEol_lf {l : Str} (h : l.getLast? ≠ some '\r') : stripEol (l ++ ['\n']) = l := by
  simp [stripEol, h]

theorem stripEol_crlf (l : Str) : stripEol (l ++ ['\r', '\n']) = l := by
  have : l ++ ['\r', '\n'] = (l ++ ['\r']) ++ ['\n'] := by simp
  rw [this]
  simp only [stripEol, List.getLast?_append, List.dropLast_concat]
  simp

theorem stripEol_last {l : Str} (h : '\n' ∉ l) : stripEol l = l := by
  unfold stripEol
  rw [if_neg]
  intro hl
  exact h (List.mem_of_getLast? hl)

theorem lines_linesOf_aux : ∀ (n : Nat) (t : Str), t.length ≤ n → Lines t (linesOf t) := by
  intro n
  induction n with
  | zero =>
    intro t ht
    have : t = [] := List.length_eq_zero_iff.1 (by omega)
    subst this
    exact .nil
  | succ n ih =>
    intro t ht
    by_cases hn : '\n' ∈ t
    · obtain ⟨l, rest, rfl, hl⟩ := List.append_of_mem hn |>.elim fun l h => h.elim fun r h => (by
        clear h
        obtain ⟨a, b, h1, h2⟩ := List.eq_append_cons_of_mem hn
        exact ⟨a, b, h1, h2⟩ : ∃ l rest : Str, t = l ++ '\n' :: rest ∧ '\n' ∉ l)
      have hr : Lines rest (linesOf rest) := ih rest (by simp at ht; omega)
      have e : linesOf (l ++ '\n' :: rest) = stripEol (l ++ ['\n']) :: linesOf rest := by
        unfold linesOf; rw [splitInclusive_append hl]; rfl
      rw [e]
      by_cases hc : l.getLast? = some '\r'
      · obtain ⟨l', rfl⟩ : ∃ l', l = l' ++ ['\r'] := by
          rw [List.getLast?_eq_some_iff] at hc
          exact hc
        have e2 : (l' ++ ['\r']) ++ ['\n'] = l' ++ ['\r', '\n'] := by simp
        have e3 : (l' ++ ['\r']) ++ '\n' :: rest = l' ++ '\r' :: '\n' :: rest := by simp
        rw [e2, e3, stripEol_crlf]
        exact .crlf (fun h => hl (by simp [h])) hr
      · rw [stripEol_lf hc]
        exact .lf hl hc hr
    · by_cases h0 : t = []
      · subst h0; exact .nil
      · have : linesOf t = [t] := by unfold linesOf; rw [splitInclusive_last hn h0]; simp [stripEol_last hn]
        rw [this]
        exact .last h0 hn

theorem lines_linesOf (t : Str) : Lines t (linesOf t) := lines_linesOf_aux t.length t (Nat.le_refl _)

theorem linesOf_of_lines {t : Str} {ls : List Str} (h : Lines t ls) : linesOf t = ls := by
  induction h with
  | nil => rfl
  | last h0 hn => unfold linesOf; rw [splitInclusive_last hn h0]; simp [stripEol_last hn]
  | lf hl hc _ ih => unfold linesOf at ih ⊢; rw [splitInclusive_append hl, List.map_cons, stripEol_lf hc, ih]
  | @crlf l rest ls hl _ ih =>
    unfold linesOf at ih ⊢
    have e3 : l ++ '\r' :: '\n' :: rest = (l ++ ['\r']) ++ '\n' :: rest := by simp
    have e2 : (l ++ ['\r']) ++ ['\n'] = l ++ ['\r', '\n'] := by simp
    rw [e3, splitInclusive_append (by simp [hl]), List.map_cons, e2, stripEol_crlf, ih]

/-! ## Equivalence -/

theorem Minimal.iff_length {m d : Dfa} (hm : Minimal m) (hmw : m.WF) (hdw : d.WF) (hs : SameElems m.alphabet d.alphabet)
    (hl : ∀ w, m.Lang w ↔ d.Lang w) : Minimal d ↔ m.states.length = d.states.length := by
  have h1 := hm d hdw (fun e => (hs e).symm) (fun w => (hl w).symm)
  constructor
  · intro hd
    have h2 := hd m hmw hs hl
    omega
  · intro he o how hos hol
    rw [← he]
    exact hm o how (fun e => (hos e).trans (hs e).symm) (fun w => (hol w).trans (hl w).symm)

open Automata in
theorem readInput_ok {cl : Str → Nat} {text : Str} {ty : AutomataType} {a : Automata} (h : load cl text ty = .ok a) :
    ∃ b, Tester.readInput cl text ty = some (.ok b) ∧ b.Valid ∧ SameElems b.elems a.elems ∧ ∀ w, b.Lang w ↔ a.Lang w := by
  cases ty with
  | dfa =>
    obtain ⟨p, d, h1, h2, rfl⟩ := load_dfa_iff.1 h
    refine ⟨.dfa d, ?_, (load_valid h).1, fun _ => Iff.rfl, fun _ => Iff.rfl⟩
    unfold Tester.readInput; rw [FaE.dfa_ok.2 h1]; dsimp only; rw [h2]
  | nfa =>
    obtain ⟨p, d, h1, h2, rfl⟩ := load_nfa_iff.1 h
    refine ⟨.nfa d, ?_, (load_valid h).1, fun _ => Iff.rfl, fun _ => Iff.rfl⟩
    unfold Tester.readInput; rw [FaE.nfa_ok.2 h1]; dsimp only; rw [h2]
  | regex =>
    obtain ⟨t, h1, rfl⟩ := load_regex_iff.1 h
    obtain ⟨d, c, g1, g2, _, g3, g4, _⟩ := intoDfa_spec (a := .regex t) trivial
    refine ⟨.dfa d, ?_, g2, g3, g4⟩
    unfold Tester.readInput; rw [RegexE.regex_ok.2 h1]; dsimp only
    unfold intoDfa at g1
    dsimp only at g1
    cases hx : t.toNfa.toDfa with
    | none => rw [hx] at g1; cases g1
    | some d' =>
      rw [hx] at g1
      cases g1
      rfl

open Automata in
theorem readInput_error {cl : Str → Nat} {text : Str} {ty : AutomataType} {e : LoadError} (h : load cl text ty = .error e) :
    Tester.readInput cl text ty = some (.error (inputError e)) := by
  cases ty with
  | dfa =>
    unfold load at h; unfold Tester.readInput
    revert h
    generalize FaE.dfa text = x
    cases x with
    | error e' => intro h; cases h; rfl
    | ok p =>
      dsimp only
      generalize Validate.dfa p = y
      cases y with
      | error e' => intro h; cases h; rfl
      | ok d => intro h; cases h
  | nfa =>
    unfold load at h; unfold Tester.readInput
    revert h
    generalize FaE.nfa text = x
    cases x with
    | error e' => intro h; cases h; rfl
    | ok p =>
      dsimp only
      generalize Validate.nfa p = y
      cases y with
      | error e' => intro h; cases h; rfl
      | ok d => intro h; cases h
  | regex =>
    unfold load at h; unfold Tester.readInput
    revert h
    generalize RegexE.regex cl text = x
    cases x with
    | error e' => intro h; cases h; rfl
    | ok t => intro h; cases h

open Automata in
theorem prepare_spec {a : Automata} (ha : a.Valid) (ty : AutomataType) :
    ∃ b c, a.prepareToCompareWith ty = some (b, c) ∧ b.Valid ∧ SameElems b.elems a.elems ∧ (∀ w, b.Lang w ↔ a.Lang w) ∧
      (ty = .dfa → ∀ d, a = .dfa d → b = .dfa d) ∧ b.getType = (if ty = .dfa then .dfa else .nfa) ∧
      (c = true ↔ a.getType ≠ b.getType) := by
  cases ty with
  | dfa =>
    obtain ⟨d, c, g1, g2, _, g3, g4, g5⟩ := intoDfa_spec ha
    refine ⟨.dfa d, c, by simp [prepareToCompareWith, intoDfaAutomata, g1], g2, g3, g4, ?_, rfl, by simpa [getType] using g5⟩
    rintro - d' rfl
    simp [intoDfa] at g1
    rw [g1.1]
  | nfa =>
    obtain ⟨g2, _, g3, g4, g5⟩ := intoNfa_spec ha
    exact ⟨_, _, rfl, g2, g3, g4, (by rintro ⟨⟩), rfl, by simpa [getType] using g5⟩
  | regex =>
    obtain ⟨g2, _, g3, g4, g5⟩ := intoNfa_spec ha
    exact ⟨_, _, rfl, g2, g3, g4, (by rintro ⟨⟩), rfl, by simpa [getType] using g5⟩

open Automata in
theorem intoMinimizedDfa_spec {o : MinOrd} (ho : o.Valid) {a : Automata} (ha : a.Valid) :
    ∃ m c, a.intoMinimizedDfa o = some (m, c) ∧ m.WF ∧ a.HasAlphabet m.alphabet ∧ SameElems m.alphabet a.elems ∧
      (∀ w, m.Lang w ↔ a.Lang w) ∧ Minimal m ∧ (c = true ↔ ¬ ∃ d, a = .dfa d ∧ Minimal d) := by
  obtain ⟨d, c, g1, g2, g3, g4, g5, g6⟩ := intoDfa_spec ha
  obtain ⟨m, h1, h2, h3, h4, h5⟩ := ho.minimize g2
  refine ⟨m, c || m.states.length != d.states.length, by simp [intoMinimizedDfa, g1, h1], h2, h3 ▸ g3, h3 ▸ g4,
    fun w => (h4 w).trans (g5 w), h5, ?_⟩
  have hiff := h5.iff_length h2 g2 (h3 ▸ fun _ => Iff.rfl) h4
  rw [Bool.or_eq_true, g6, bne_iff_ne]
  cases a with
  | dfa d' =>
    simp only [intoDfa, Option.some.injEq, Prod.mk.injEq] at g1
    obtain ⟨rfl, _⟩ := g1
    simp only [getType, ne_eq, not_true_eq_false, false_or, dfa.injEq, exists_eq_left', hiff]
  | nfa n => simp [getType]
  | regex t => simp [getType]

open Automata in
theorem tester_new {cl : Str → Nat} {o : MinOrd} (ho : o.Valid) {text : Str} {args : EquivalenceArgs} {ref : Automata}
    (h : load cl text (args.inType.getD args.type) = .ok ref) (hcfg : args.minimized = true → args.type = .dfa) :
    ∃ t, Tester.new cl o text args = some (.ok t) ∧ t.minimized = args.minimized ∧ t.testType = args.type ∧ t.input.Valid ∧
      SameElems t.input.elems ref.elems ∧ (∀ w, t.input.Lang w ↔ ref.Lang w) ∧
      (args.minimized = true → ∃ m, t.input = .dfa m ∧ Minimal m) := by
  obtain ⟨b, h1, h2, h3, h4⟩ := readInput_ok h
  unfold Tester.new
  rw [h1]
  dsimp only
  cases hm : args.minimized with
  | true =>
    obtain ⟨m, c, k1, k2, _, k3, k4, k5, _⟩ := intoMinimizedDfa_spec ho h2
    obtain ⟨b', c', l1, l2, l3, l4, l5, _⟩ := prepare_spec (a := .dfa m) k2 args.type
    have e := l5 (hcfg hm) m rfl
    subst e
    refine ⟨⟨.dfa m, true, args.type⟩, ?_, rfl, rfl, k2, ?_, ?_, fun _ => ⟨m, rfl, k5⟩⟩
    · simp [hcfg hm, intoMinimizedDfaAutomata, k1] at l1 ⊢
      rw [l1]; rfl
    · exact fun e => (k3 e).trans (h3 e)
    · exact fun w => (k4 w).trans (h4 w)
  | false =>
    obtain ⟨b', c', l1, l2, l3, l4, _⟩ := prepare_spec h2 args.type
    refine ⟨⟨b', false, args.type⟩, ?_, rfl, rfl, l2, fun e => (l3 e).trans (h3 e), fun w => (l4 w).trans (h4 w), by simp⟩
    simp [l1]

open Automata in
theorem loadTest_ok {cl : Str → Nat} {text : Str} {ty : AutomataType} {a : Automata} (h : load cl text ty = .ok a) :
    ∃ b, loadTest cl text ty = .ok b ∧ b.Valid ∧ SameElems b.elems a.elems ∧ (∀ w, b.Lang w ↔ a.Lang w) ∧
      (ty = .dfa → b = a) := by
  cases ty with
  | dfa =>
    obtain ⟨p, d, h1, h2, rfl⟩ := load_dfa_iff.1 h
    refine ⟨.dfa d, ?_, (load_valid h).1, fun _ => Iff.rfl, fun _ => Iff.rfl, fun _ => rfl⟩
    unfold loadTest; rw [FaE.dfa_ok.2 h1]; dsimp only; rw [h2]
  | nfa =>
    obtain ⟨p, d, h1, h2, rfl⟩ := load_nfa_iff.1 h
    refine ⟨.nfa d, ?_, (load_valid h).1, fun _ => Iff.rfl, fun _ => Iff.rfl, fun _ => rfl⟩
    unfold loadTest; rw [FaE.nfa_ok.2 h1]; dsimp only; rw [h2]
  | regex =>
    obtain ⟨t, h1, rfl⟩ := load_regex_iff.1 h
    refine ⟨.nfa t.toNfa, ?_, C35_to_nfa_valid t, regex_alphabet t, regex_lang t, by rintro ⟨⟩⟩
    unfold loadTest; rw [RegexE.regex_ok.2 h1]

open Automata in
theorem loadTest_error {cl : Str → Nat} {text : Str} {ty : AutomataType} {e : LoadError} (h : load cl text ty = .error e) :
    loadTest cl text ty = .error (loadVerdict e) := by
  cases ty with
  | dfa =>
    unfold load at h; unfold loadTest
    revert h
    generalize FaE.dfa text = x
    intro h
    cases x with
    | error e' => dsimp only at h ⊢; cases h; rfl
    | ok p =>
      dsimp only at h ⊢
      cases hv : Validate.dfa p with
      | error e => rw [hv] at h; cases h; rfl
      | ok d => rw [hv] at h; cases h
  | nfa =>
    unfold load at h; unfold loadTest
    revert h
    generalize FaE.nfa text = x
    intro h
    cases x with
    | error e' => dsimp only at h ⊢; cases h; rfl
    | ok p =>
      dsimp only at h ⊢
      cases hv : Validate.nfa p with
      | error e => rw [hv] at h; cases h; rfl
      | ok d => rw [hv] at h; cases h
  | regex =>
    unfold load at h; unfold loadTest
    revert h
    generalize RegexE.regex cl text = x
    intro h
    cases x with
    | error e' => dsimp only at h ⊢; cases h; rfl
    | ok p => cases h

open Automata in
theorem tester_test {env : Env} {args : EquivalenceArgs} {ref : Automata} {t : Tester}
    (h1 : t.minimized = args.minimized) (h2 : t.testType = args.type) (h3 : t.input.Valid)
    (h4 : SameElems t.input.elems ref.elems) (h5 : ∀ w, t.input.Lang w ↔ ref.Lang w)
    (h6 : args.minimized = true → ∃ m, t.input = .dfa m ∧ Minimal m) (hcfg : args.minimized = true → args.type = .dfa)
    (path : Str) : ∃ r, t.test env path = some r ∧ Verdict env ref args path r := by
  unfold Tester.test Verdict
  cases hr : env.read path with
  | error msg => exact ⟨_, rfl, rfl⟩
  | ok text =>
    dsimp only
    cases hl : load env.cl text args.type with
    | error e =>
      rw [h2, loadTest_error hl]
      exact ⟨_, rfl, rfl⟩
    | ok sub =>
      obtain ⟨b, g1, g2, g3, g4, g5⟩ := loadTest_ok hl
      rw [h2, g1]
      dsimp only
      obtain ⟨r, hr, hv⟩ := testEquivalence_spec h3 g2 t.minimized
      refine ⟨r, hr, ?_⟩
      have hs : t.input.Same b ↔ ref.Same sub := Same.congr h4 g3 h5 g4
      rw [hs] at hv
      by_cases hm : args.minimized = true
      · obtain ⟨m, hm1, hm2⟩ := h6 hm
        have hty := hcfg hm
        have hb := g5 hty
        have hgt := (load_valid hl).2
        rw [hty] at hgt
        cases sub with
        | nfa n => cases hgt
        | regex t => cases hgt
        | dfa d =>
          subst hb
          by_cases hsame : ref.Same (.dfa d)
          · have hsm := hs.2 hsame
            rw [hm1] at hsm h3
            have hiff := hm2.iff_length (d := d) h3 g2 hsm.1 hsm.2
            have e1 : (t.minimized = true ∧ ∃ d1 d2, t.input = .dfa d1 ∧ Automata.dfa d = .dfa d2 ∧ d1.states.length ≠ d2.states.length) ↔
                (args.minimized = true ∧ ¬ (∀ d', Automata.dfa d = .dfa d' → Minimal d')) := by
              rw [h1, hm1]
              simp [hm, hiff]
            rw [e1] at hv
            exact hv
          · rcases hv with hv | hv | hv
            · exact Or.inl hv
            · exact absurd hv.1 hsame
            · exact absurd hv.1 hsame
      · rcases hv with hv | hv | hv
        · exact Or.inl hv
        · exact absurd (h1 ▸ hv.2.1.1) hm
        · exact Or.inr (Or.inr ⟨hv.1, fun h => hm h.1, hv.2.2⟩)

theorem mapM_some {α β : Type} {f : α → Option β} {P : α → β → Prop} (h : ∀ a, ∃ b, f a = some b ∧ P a b) (l : List α) :
    ∃ bs, l.mapM f = some bs ∧ List.Forall₂ P l bs := by
  induction l with
  | nil => exact ⟨[], rfl, .nil⟩
  | cons a l ih =>
    obtain ⟨b, h1, h2⟩ := h a
    obtain ⟨bs, h3, h4⟩ := ih
    exact ⟨b :: bs, by rw [List.mapM_cons, h1, h3]; rfl, .cons h2 h4⟩

theorem resultLoop_spec (args : EquivalenceArgs) : ∀ (l : List (Str × EquivalenceResult)) (acc : Nat),
    resultLoop args l acc = (l.map (fun p => .out (resultLine args p.1 p.2)), acc + (l.map (·.2)).count .equivalent) := by
  intro l
  induction l with
  | nil => intro acc; rfl
  | cons p l ih =>
    intro acc
    obtain ⟨path, r⟩ := p
    simp only [resultLoop, ih, List.map_cons, List.count_cons]
    by_cases h : r = .equivalent <;> simp [h] <;> omega

theorem outs_append (a b : List Line) : outs (a ++ b) = outs a ++ outs b := by simp [outs]

theorem outs_log (b : Bool) (s : Str) : outs (logLine b s) = [] := by cases b <;> rfl

theorem outs_map_out (l : List Str) : outs (l.map .out) = l := by
  induction l with
  | nil => rfl
  | cons a l ih => simpa [outs] using ih

end Cli
end Dandy

namespace Dandy
namespace Cli
open Automata

/-! ## Binary operations -/

theorem operand_spec {o : MinOrd} (ho : o.Valid) {a : Automata} (ha : a.Valid) (noLog m : Bool) (i : Nat) :
    ∃ d l, operand o noLog m i a = some (d, l) ∧ d.WF ∧ a.HasAlphabet d.alphabet ∧ SameElems d.alphabet a.elems ∧
      (∀ w, d.Lang w ↔ a.Lang w) ∧ outs l = [] := by
  obtain ⟨d, c, g1, g2, g3, g4, g5, g6⟩ := intoDfa_spec ha
  obtain ⟨x, h1, h2, h3, h4, _⟩ := ho.minimize g2
  have key : ∀ msg, operand o noLog m i a = some (x, logLine noLog msg) → ∃ d l, operand o noLog m i a = some (d, l) ∧ d.WF ∧
      a.HasAlphabet d.alphabet ∧ SameElems d.alphabet a.elems ∧ (∀ w, d.Lang w ↔ a.Lang w) ∧ outs l = [] :=
    fun msg h => ⟨x, _, h, h2, h3 ▸ g3, h3 ▸ g4, fun w => (h4 w).trans (g5 w), outs_log _ _⟩
  cases c with
  | true =>
    refine key ?_ ?_
    · exact c!"Input file " ++ numStr i ++ c!" was converted to a minimized DFA to proceed, since it wasn't a DFA to start with"
    · simp only [operand, intoMinimizedDfaIfNotDfa, g1, Option.bind_eq_bind, Option.bind_some, Bool.not_true, Bool.false_eq_true,
        ↓reduceIte, Option.pure_def, h1]
  | false =>
    cases m with
    | true =>
      refine key ?_ ?_
      · exact c!"Minimized DFA " ++ numStr i ++ c!" before doing product construction"
      · simp only [operand, intoMinimizedDfaIfNotDfa, g1, Option.bind_eq_bind, Option.bind_some, Bool.not_false, ↓reduceIte,
          Option.pure_def, h1]; rfl
    | false =>
      refine ⟨d, [], ?_, g2, g3, g4, g5, rfl⟩
      simp only [operand, intoMinimizedDfaIfNotDfa, g1]; rfl

theorem apply_none {ord : List (Nat × Nat) → List (Nat × Nat)} (hord : ∀ l, (ord l).Perm l) (op : BinaryOperation) {d1 d2 : Dfa}
    (h1 : d1.WF) (h2 : d2.WF) (hs : ¬ SameElems d1.alphabet d2.alphabet) : op.apply ord d1 d2 = some none := by
  obtain ⟨a, b, c, d⟩ := (C09_dfa_set_operations ord hord d1 d2 h1 h2).1 hs
  cases op <;> assumption

theorem apply_some {ord : List (Nat × Nat) → List (Nat × Nat)} (hord : ∀ l, (ord l).Perm l) (op : BinaryOperation) {d1 d2 : Dfa}
    (h1 : d1.WF) (h2 : d2.WF) (hs : SameElems d1.alphabet d2.alphabet) :
    ∃ p, op.apply ord d1 d2 = some (some p) ∧ p.WF ∧ p.alphabet = d1.alphabet ∧
      ∀ w, p.Lang w ↔ op.Combine (d1.Lang w) (d2.Lang w) := by
  obtain ⟨a, b, c, d⟩ := (C09_dfa_set_operations ord hord d1 d2 h1 h2).2 hs
  cases op
  · exact a
  · exact b
  · exact c
  · exact d

theorem Combine.congr (op : BinaryOperation) {p p' q q' : Prop} (hp : p ↔ p') (hq : q ↔ q') : op.Combine p q ↔ op.Combine p' q' := by
  rw [propext hp, propext hq]

theorem showCombined_spec {o : MinOrd} (ho : o.Valid) (noLog : Bool) (op : BinaryOperation) (args : BinaryOpArgs) {c : Dfa} (hc : c.WF) :
    ∃ d l table, showCombined o noLog op args c = some (d, l) ∧ d.WF ∧ d.alphabet = c.alphabet ∧ (∀ w, d.Lang w ↔ c.Lang w) ∧
      (args.minimized = true → Minimal d) ∧ (args.minimized = false → d = c) ∧ d.toTable = some table ∧ outs l = [table] := by
  have e : ∀ (msg table : Str), outs (logLine noLog msg ++ [.out table]) = [table] := by
    intro msg table
    rw [outs_append, outs_log]; rfl
  cases hm : args.minimized with
  | true =>
    obtain ⟨x, h1, h2, h3, h4, h5⟩ := ho.minimize hc
    obtain ⟨table, ht, _⟩ := (C59_dfa_aligned x h2).1
    refine ⟨x, logLine noLog ?_ ++ [.out table], table, ?_, h2, h3, h4, fun _ => h5, by simp, ht, e _ table⟩
    · exact c!"Minimized DFA (" ++ op.str ++ c!" of the two provided " ++ args.type.toString true ++ c!"):"
    · simp only [showCombined, hm, ↓reduceIte, h1, Option.bind_eq_bind, Option.bind_some, ht]; rfl
  | false =>
    obtain ⟨table, ht, _⟩ := (C59_dfa_aligned c hc).1
    refine ⟨c, logLine noLog ?_ ++ [.out table], table, ?_, hc, rfl, fun _ => Iff.rfl, by simp, by simp, ht, e _ table⟩
    · exact op.str ++ c!" of " ++ args.type.toString true ++ c!" (not minimized, add --minimized to minimize):"
    · simp only [showCombined, hm, Bool.false_eq_true, ↓reduceIte, Option.bind_eq_bind, Option.bind_some, ht]; rfl

theorem toNfa_noEps (d : Dfa) : ∀ s ∈ d.toNfa.states, s.epsilonTransitions = [] := by
  have h := (C18_to_nfa_structure d).1
  simp only [Nfa.hasEpsilonMoves, List.any_eq_false, Bool.not_eq_true', Bool.not_eq_false,
    List.isEmpty_iff] at h
  exact h

theorem outs_words (ws : List Word) : outs ((ws.map List.flatten).map wordLine) = ws.map shown := by
  induction ws with
  | nil => rfl
  | cons w ws ih =>
    simp only [List.map_cons, wordLine_flatten]
    have e : ∀ (s : Str) (l : List Line), outs (.out s :: l) = s :: outs l := fun s l => rfl
    rw [e, ih]

theorem opName_eq (op : BinaryOperation) : opName op = op.str ∧ opNameInside op = op.strLower := by cases op <;> exact ⟨rfl, rfl⟩

theorem kindName_eq (t : AutomataType) : kindName t = t.toString false ∧ kindNames t = t.toString true := by cases t <;> exact ⟨rfl, rfl⟩

theorem enumerateCombined_spec (op : BinaryOperation) {d : Dfa} (hd : d.WF) (n : Option Nat) :
    ∃ l, enumerateCombined op d n = some l ∧ EnumReport op d.alphabet d.Lang n (outs l) := by
  cases n with
  | none => exact ⟨[], rfl, rfl⟩
  | some n =>
    have hn := (C18_to_nfa_lang d hd []).1
    obtain ⟨ws, h1, h2⟩ := takeWords_spec hn (toNfa_noEps d) n
    have h3 : FirstWords d.alphabet d.Lang n ws := by
      have := h2.congr (fun w => (C18_to_nfa_lang d hd w).2.1)
      rwa [(C18_to_nfa_structure d).2.1] at this
    unfold enumerateCombined
    dsimp only
    rw [h1]
    refine ⟨_, rfl, ws, h3, ?_⟩
    have e : ∀ (s : Str) (l : List Line), outs (.out s :: l) = s :: outs l := fun s l => rfl
    rw [e, outs_append, outs_words, (opName_eq op).2]
    congr 2
    have hs := h3.short
    by_cases hw : ws.length = n
    · simp [hw, outs]
    · have : ws.length < n := by omega
      simp [hw, this, outs]

theorem compareCombined_spec (env : Env) (op : BinaryOperation) (args : BinaryOpArgs) {d : Dfa} (hd : d.WF) :
    ∃ e, compareCombined env op args d = some e ∧ CompareReport env op args d.alphabet d.Lang (outs e.lines) e.result := by
  unfold compareCombined CompareReport
  rw [(opName_eq op).1, (kindName_eq args.type).2, (kindName_eq args.comparedType).1]
  cases args.compareAgainst with
  | none => exact ⟨_, rfl, rfl, rfl⟩
  | some path =>
    dsimp only
    cases hl : loadFile env path args.comparedType with
    | error e => exact ⟨_, rfl, rfl, rfl⟩
    | ok b =>
      obtain ⟨r, hr, hv⟩ := testEquivalence_spec (a := .dfa d) hd (loadFile_valid hl).1 false
      dsimp only
      rw [hr]
      refine ⟨_, rfl, rfl, ?_⟩
      rcases hv with ⟨h1, rfl⟩ | ⟨_, h2, _⟩ | ⟨h1, _, rfl⟩
      · exact ⟨_, Or.inr ⟨h1, rfl⟩, rfl⟩
      · simp at h2
      · exact ⟨_, Or.inl ⟨h1, rfl⟩, rfl⟩

theorem EnumReport.congr {op : BinaryOperation} {al : List Str} {L L' : Word → Prop} (h : ∀ w, L w ↔ L' w) {n : Option Nat} {r : List Str}
    (hr : EnumReport op al L n r) : EnumReport op al L' n r := by
  cases n with
  | none => exact hr
  | some n =>
    obtain ⟨ws, h1, h2⟩ := hr
    exact ⟨ws, h1.congr h, h2⟩

theorem CompareReport.congr {env : Env} {op : BinaryOperation} {args : BinaryOpArgs} {al al' : List Str} {L L' : Word → Prop}
    (ha : SameElems al al') (h : ∀ w, L w ↔ L' w) {r : List Str} {x : Except BinaryError Unit}
    (hr : CompareReport env op args al L r x) : CompareReport env op args al' L' r x := by
  have e1 : L = L' := funext fun w => propext (h w)
  subst e1
  have e2 : ∀ b : List Str, SameElems al b ↔ SameElems al' b := fun b =>
    ⟨fun hh e => (ha e).symm.trans (hh e), fun hh e => (ha e).trans (hh e)⟩
  unfold CompareReport at hr ⊢
  simpa only [e2] using hr

/-! ## Testing files -/

open Classical in
theorem lineLoop_spec (seg : Str → List Str) (nfa : Nfa) (A : Str → Prop) (hA : ∀ l, nfa.acceptsGraphemes seg l = true ↔ A l) :
    ∀ (ls : List Str) (n a : Nat), ∃ marks, lineLoop seg nfa ls n a =
      (marks.map .out, n + ls.length, a + (ls.filter (fun l => decide (A l))).length) ∧
      List.Forall₂ (fun l m => A l ∧ m = c!"[ OK ] " ++ l ∨ ¬ A l ∧ m = c!"[FAIL] " ++ l) ls marks := by
  intro ls
  induction ls with
  | nil => intro n a; exact ⟨[], rfl, .nil⟩
  | cons l ls ih =>
    intro n a
    by_cases h : A l
    · obtain ⟨marks, h1, h2⟩ := ih (n + 1) (a + 1)
      refine ⟨(c!"[ OK ] " ++ l) :: marks, ?_, .cons (Or.inl ⟨h, rfl⟩) h2⟩
      simp only [lineLoop, (hA l).2 h, ↓reduceIte, h1, List.map_cons, List.length_cons, List.filter_cons, h, decide_true]
      simp only [Prod.mk.injEq, List.cons.injEq, Line.out.injEq, List.cons_append, List.nil_append, and_true, true_and]
      omega
    · obtain ⟨marks, h1, h2⟩ := ih (n + 1) a
      refine ⟨(c!"[FAIL] " ++ l) :: marks, ?_, .cons (Or.inr ⟨h, rfl⟩) h2⟩
      have h' : nfa.acceptsGraphemes seg l = false := by
        rw [← Bool.not_eq_true, hA]; exact h
      simp only [lineLoop, h', Bool.false_eq_true, ↓reduceIte, h1, List.map_cons, List.length_cons, List.filter_cons, h, decide_false]
      simp only [Prod.mk.injEq, List.cons.injEq, Line.out.injEq, List.cons_append, List.nil_append, and_true, true_and]
      omega

theorem testOne_lines (seg : Str → List Str) (nfa : Nfa) (A : Str → Prop) (hA : ∀ l, nfa.acceptsGraphemes seg l = true ↔ A l)
    (file content : Str) : LinesReport A file content (outs (testOne seg nfa .lines file content)) := by
  obtain ⟨marks, h1, h2⟩ := lineLoop_spec seg nfa A hA (linesOf content) 0 0
  refine ⟨linesOf content, marks, lines_linesOf content, h2, ?_⟩
  unfold testOne
  rw [if_pos rfl, h1]
  dsimp only
  have e : ∀ (s : Str) (l : List Line), outs (.out s :: l) = s :: outs l := fun s l => rfl
  rw [e, outs_append, outs_map_out, e, Nat.zero_add, Nat.zero_add]
  rfl

theorem testOne_files (seg : Str → List Str) (nfa : Nfa) (A : Str → Prop) (hA : ∀ l, nfa.acceptsGraphemes seg l = true ↔ A l)
    (file content : Str) : FilesReport A file content (outs (testOne seg nfa .files file content)) := by
  refine ⟨linesOf content, lines_linesOf content, ?_⟩
  unfold testOne
  rw [if_neg (by simp)]
  cases h : (linesOf content).find? (fun line => !nfa.acceptsGraphemes seg line) with
  | none =>
    left
    refine ⟨?_, rfl⟩
    intro l hl
    have := List.find?_eq_none.1 h l hl
    simp only [Bool.not_eq_true', Bool.not_eq_false] at this
    exact (hA l).1 this
  | some c =>
    right
    obtain ⟨h1, pre, post, h2, h3⟩ := List.find?_eq_some_iff_append.1 h
    refine ⟨pre, c, post, h2, ?_, ?_, rfl⟩
    · intro l hl
      have := h3 l hl
      simp only [Bool.not_not] at this
      exact (hA l).1 this
    · intro hc
      rw [← hA] at hc
      simp [hc] at h1

theorem fileLoop_spec (env : Env) (nfa : Nfa) (ty : TestType) (files : List Str) :
    ∃ read reports rest, files = read ++ rest ∧
      outs (fileLoop env nfa ty files).lines = reports.flatten ∧
      List.Forall₂ (fun file report => ∃ content, env.read file = .ok content ∧ report = outs (testOne env.seg nfa ty file content)) read reports ∧
      (rest = [] ∧ (fileLoop env nfa ty files).result = .ok () ∨
        ∃ bad more msg, rest = bad :: more ∧ env.read bad = .error msg ∧ (fileLoop env nfa ty files).result = .error (.file bad msg)) := by
  induction files with
  | nil => exact ⟨[], [], [], rfl, rfl, .nil, Or.inl ⟨rfl, rfl⟩⟩
  | cons file files ih =>
    cases h : env.read file with
    | error msg =>
      have e : fileLoop env nfa ty (file :: files) = ⟨[], .error (.file file msg)⟩ := by rw [fileLoop, h]
      rw [e]
      exact ⟨[], [], file :: files, rfl, rfl, .nil, Or.inr ⟨file, files, msg, rfl, h, rfl⟩⟩
    | ok content =>
      obtain ⟨read, reports, rest, h1, h2, h3, h4⟩ := ih
      have e : fileLoop env nfa ty (file :: files) =
          ⟨testOne env.seg nfa ty file content ++ (fileLoop env nfa ty files).lines, (fileLoop env nfa ty files).result⟩ := by
        rw [fileLoop, h]
      rw [e]
      refine ⟨file :: read, outs (testOne env.seg nfa ty file content) :: reports, rest, by rw [h1]; rfl, ?_, .cons ⟨content, h, rfl⟩ h3, h4⟩
      rw [outs_append, h2]; rfl

end Cli
end Dandy

namespace Dandy
namespace Cli

theorem defectText_eq (e : ParseError) : parseErrorText e = defectText e := by cases e <;> rfl

theorem verdictText_eq (r : EquivalenceResult) : r.text = verdictText r := by
  cases r with
  | failedToValidate e => rw [EquivalenceResult.text, defectText_eq]; rfl
  | _ => rfl

theorem showsVerdict_resultLine (args : EquivalenceArgs) (path : Str) (r : EquivalenceResult) :
    ShowsVerdict args path r (resultLine args path r) := by
  refine ⟨match lastNComponents path args.pathLength with | some p => p ++ c!": " | none => [],
    if args.bool then (if r = .equivalent then c!"true" else c!"false") else r.text, ?_, ?_, ?_, ?_⟩
  · unfold resultLine
    cases lastNComponents path args.pathLength with
    | none => rfl
    | some p => rfl
  · cases lastNComponents path args.pathLength with
    | none => exact Or.inl ⟨rfl, rfl⟩
    | some p => exact Or.inr ⟨p, rfl, rfl⟩
  · intro hb
    rw [if_pos hb]
    by_cases hre : r = .equivalent
    · exact Or.inl ⟨hre, if_pos hre⟩
    · exact Or.inr ⟨hre, if_neg hre⟩
  · intro hb
    rw [if_neg (by simp [hb]), verdictText_eq]

theorem forall₂_pairs {P : Str → EquivalenceResult → Prop} {files : List Str} {prs : List (Str × EquivalenceResult)}
    (h : List.Forall₂ (fun path pr => pr.1 = path ∧ P path pr.2) files prs) :
    files.zip (prs.map (·.2)) = prs ∧ List.Forall₂ P files (prs.map (·.2)) := by
  induction h with
  | nil => exact ⟨rfl, .nil⟩
  | cons h _ ih =>
    refine ⟨?_, .cons h.2 ih.2⟩
    simp only [List.map_cons, List.zip_cons_cons]
    rw [ih.1, ← h.1]

theorem outs_results (args : EquivalenceArgs) (l : List (Str × EquivalenceResult)) :
    outs (l.map (fun p => Line.out (resultLine args p.1 p.2))) = l.map (fun p => resultLine args p.1 p.2) := by
  have := outs_map_out (l.map (fun p => resultLine args p.1 p.2))
  rwa [List.map_map] at this

end Cli
end Dandy

namespace Dandy
namespace Cli

theorem enumerateNfa_spec (o : EpsOrd) (ho : o.Valid) {n : Nfa} (hn : n.WF) (noLog : Bool) (k : Nat) :
    ∃ ls ws, enumerateNfa o n noLog k = some ls ∧ FirstWords n.alphabet n.Lang k ws ∧ outs ls = ws.map shown ∧
      (noLog = true → ls = (ws.map shown).map .out) ∧
      (noLog = false → ls = .log (c!"First " ++ numStr k ++ c!" words of the language of the regex:") :: ((ws.map shown).map .out ++
        if ws.length < k then [.log (c!"(only " ++ numStr ws.length ++ c!" words exists in the language of the regex)")] else [])) := by
  obtain ⟨m, h1, h2, h3, h4, _, h5, _⟩ := C25_remove_epsilon_moves o.t ho.t o.dead ho.dead n hn
  obtain ⟨ws, h6, h7⟩ := takeWords_spec h2 h4 k
  have hs := h7.short
  have hmap : (ws.map List.flatten).map wordLine = (ws.map shown).map Line.out := by
    simp only [List.map_map]
    exact List.map_congr_left (fun w _ => wordLine_flatten w)
  refine ⟨_, ws, by rw [enumerateNfa, h1, Option.bind_eq_bind, Option.bind_some, h6]; rfl, ?_, ?_, ?_, ?_⟩
  · have := h7.congr h5
    rwa [h3] at this
  · rw [outs_append, outs_append, outs_log, outs_words, List.nil_append]
    have e : outs ([] : List Line) = [] := rfl
    split
    · rw [outs_log, List.append_nil]
    · rw [e, List.append_nil]
  · rintro rfl
    simp only [logLine, ↓reduceIte, List.nil_append, ite_self, List.append_nil]
    exact hmap
  · rintro rfl
    rw [hmap, List.length_map]
    by_cases hw : ws.length = k
    · rw [if_neg (by omega), if_neg (by omega)]; rfl
    · rw [if_pos hw, if_pos (by omega)]; rfl

theorem Before.idx {al : List Str} (hnd : al.Nodup) {a b : Str} (h : Before al a b) : al.idxOf a < al.idxOf b := by
  obtain ⟨i, j, h1, h2, h3⟩ := h
  have e : ∀ (k : Nat) (x : Str), al[k]? = some x → al.idxOf x = k := by
    intro k x hk
    obtain ⟨hk', rfl⟩ := List.getElem?_eq_some_iff.1 hk
    exact hnd.idxOf_getElem k hk'
  rw [e i a h1, e j b h2]
  exact h3

theorem ShortLex.asymm {al : List Str} (hnd : al.Nodup) {u v : Word} (h : ShortLex al u v) : ¬ ShortLex al v u := by
  rintro h'
  rcases h with h | ⟨hl, p, u', v', a, b, rfl, rfl, hab⟩
  · rcases h' with h' | ⟨h', _⟩ <;> omega
  · rcases h' with h' | ⟨_, q, x, y, c, d, h1, h2, hcd⟩
    · omega
    · rcases Nat.lt_trichotomy p.length q.length with hlt | heq | hgt
      · have e1 := congrArg (fun l => l[p.length]?) h1
        have e2 := congrArg (fun l => l[p.length]?) h2
        simp only [List.getElem?_append_right (Nat.le_refl _), Nat.sub_self, List.getElem?_cons_zero, List.getElem?_append_left hlt] at e1 e2
        rw [← e1, Option.some.injEq] at e2
        subst e2
        exact absurd (Before.idx hnd hab) (Nat.lt_irrefl _)
      · obtain ⟨rfl, h3⟩ := List.append_inj h1 heq
        obtain ⟨_, h4⟩ := List.append_inj h2 heq
        simp only [List.cons.injEq] at h3 h4
        obtain ⟨rfl, _⟩ := h3
        obtain ⟨rfl, _⟩ := h4
        exact absurd (Before.idx hnd hab) (Nat.lt_asymm (Before.idx hnd hcd))
      · have e1 := congrArg (fun l => l[q.length]?) h1
        have e2 := congrArg (fun l => l[q.length]?) h2
        simp only [List.getElem?_append_right (Nat.le_refl _), Nat.sub_self, List.getElem?_cons_zero, List.getElem?_append_left hgt] at e1 e2
        rw [e1, Option.some.injEq] at e2
        subst e2
        exact absurd (Before.idx hnd hcd) (Nat.lt_irrefl _)

theorem FirstWords.nodup {al : List Str} (hnd : al.Nodup) {L : Word → Prop} {n : Nat} {ws : List Word} (h : FirstWords al L n ws) : ws.Nodup := by
  refine h.sorted.imp ?_
  rintro a b hab rfl
  exact ShortLex.asymm hnd hab hab

theorem FirstWords.mem_unique {al : List Str} (hnd : al.Nodup) {L : Word → Prop} {n : Nat} {ws ws' : List Word} (h : FirstWords al L n ws)
    (h' : FirstWords al L n ws') : ∀ v ∈ ws, v ∈ ws' := by
  intro v hv
  rcases h'.complete v (h.sound v hv) with h1 | ⟨h1, h2⟩
  · exact h1
  · -- all of `ws'` are before `v`, hence in `ws`
    by_contra hc
    have hsub : ∀ u ∈ ws', u ∈ ws := by
      intro u hu
      rcases h.complete u (h'.sound u hu) with h3 | ⟨_, h4⟩
      · exact h3
      · exact absurd (h4 v hv) (ShortLex.asymm hnd (h2 u hu))
    have nd : ws'.Nodup := FirstWords.nodup hnd h'
    have := List.Subperm.length_le (nd.subperm (l₁ := ws') (l₂ := ws.erase v) (by
      intro u hu
      rw [List.mem_erase_of_ne (by rintro rfl; exact hc hu)]
      exact hsub u hu))
    rw [List.length_erase_of_mem hv] at this
    have h3 := h.short
    have h4 : 0 < ws.length := List.length_pos_of_mem hv
    omega

theorem FirstWords.unique {al : List Str} (hnd : al.Nodup) {L : Word → Prop} {n : Nat} {ws ws' : List Word} (h : FirstWords al L n ws)
    (h' : FirstWords al L n ws') : ws = ws' := by
  have nd : ws.Nodup := FirstWords.nodup hnd h
  have nd' : ws'.Nodup := FirstWords.nodup hnd h'
  have hp : ws.Perm ws' := (List.perm_ext_iff_of_nodup nd nd').2
    (fun v => ⟨FirstWords.mem_unique hnd h h' v, FirstWords.mem_unique hnd h' h v⟩)
  exact hp.eq_of_pairwise (fun a b _ _ h1 h2 => absurd h2 (ShortLex.asymm hnd h1)) h.sorted h'.sorted

end Cli
end Dandy
