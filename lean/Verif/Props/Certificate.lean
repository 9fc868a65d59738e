import Verif.Props.Solve
import Verif.Props.Regular
import Verif.Spec.Certificate
/-! # C132: expressions for the states of an automaton -/

namespace Dandy
open Samples RegexParser RegexTree

/-- Texts for the columns, the states and the ends of an automaton: a column accepts just its element, an end just the empty word if the state is
accepting and nothing otherwise. -/
structure Labels (cl : Str → Nat) (n : Nfa) (a e t : Nat → Str) : Prop where
  column : ∀ (j : Nat) (g : Str), n.alphabet[j]? = some g → Part cl (a j) ∧ ∀ x, regex cl (a j) = some x → ∀ w, (toNfa x).accepts w = true ↔ w = [g]
  ending : ∀ (q : Nat) (s : NfaState), n.states[q]? = some s →
    Part cl (e q) ∧ ∀ x, regex cl (e q) = some x → ∀ w, (toNfa x).accepts w = true ↔ w = [] ∧ s.accepting = true
  state : ∀ (q : Nat) (s : NfaState), n.states[q]? = some s → Part cl (t q)

private theorem mem_text {cl : Str → Nat} {t : Str} {e : RegexTree} (h : regex cl t = some e) (w : Word) :
    w ∈ textLang cl t ↔ (toNfa e).accepts w = true := by
  change (∃ e', regex cl t = some e' ∧ (toNfa e').accepts w = true) ↔ _
  rw [h]
  simp

private theorem equivalent_words {a b : RegexTree} (h : (toNfa a).equivalentTo (toNfa b) = some true) (w : Word) :
    (toNfa a).accepts w = (toNfa b).accepts w := by
  obtain ⟨r, h1, h2⟩ := C20_nfa_equivalent_to (toNfa a) (toNfa b) (toNfa_wf a) (toNfa_wf b)
  rw [h1] at h
  rw [Bool.eq_iff_iff, C02_nfa_accepts_iff _ (toNfa_wf a), C02_nfa_accepts_iff _ (toNfa_wf b)]
  exact (h2.1 (Option.some.inj h)).2 w

private theorem mem_moves {s : NfaState} {j p : Nat} : (j, p) ∈ s.moves ↔ ∃ ts, s.transitions[j]? = some ts ∧ p ∈ ts := by
  unfold NfaState.moves
  rw [List.mem_flatMap]
  constructor
  · rintro ⟨⟨ts, i⟩, h1, h2⟩
    rw [List.mem_zipIdx_iff_getElem?] at h1
    obtain ⟨p', hp, he⟩ := List.mem_map.1 h2
    cases he
    exact ⟨ts, h1, hp⟩
  · rintro ⟨ts, h1, h2⟩
    exact ⟨(ts, j), List.mem_zipIdx_iff_getElem?.2 h1, List.mem_map.2 ⟨p, h2, rfl⟩⟩

private theorem foldr_parts {α : Type} (f : α → Shape Str) (z : Shape Str) (l : List α) (u : Str) :
    u ∈ (l.foldr (fun x z => .alt (f x) z) z).parts ↔ (∃ x ∈ l, u ∈ (f x).parts) ∨ u ∈ z.parts := by
  induction l with
  | nil => simp
  | cons x l ih =>
    change u ∈ (f x).parts ++ (l.foldr (fun x z => .alt (f x) z) z).parts ↔ _
    rw [List.mem_append, ih]
    simp [or_assoc]

private theorem foldr_lang {α : Type} (ρ : Str → Language Str) (f : α → Shape Str) (z : Shape Str) (l : List α) (w : Word) :
    w ∈ (l.foldr (fun x z => .alt (f x) z) z).lang ρ ↔ (∃ x ∈ l, w ∈ (f x).lang ρ) ∨ w ∈ z.lang ρ := by
  induction l with
  | nil => simp
  | cons x l ih =>
    change w ∈ (f x).lang ρ + (l.foldr (fun x z => .alt (f x) z) z).lang ρ ↔ _
    rw [Language.mem_add, ih]
    simp [or_assoc]

/-- The row as a text: it is an expression, and its words are the empty word (accepting states), the words of the targets of epsilon moves, and those
of the targets of moves after the element. -/
private theorem row {cl : Str → Nat} (h : Segmentation cl) {n : Nfa} (hn : n.WF) {a e t : Nat → Str} (hl : Labels cl n a e t) {q : Nat} {s : NfaState}
    (hs : n.states[q]? = some s) :
    ∃ x, regex cl (s.equation a t (e q)).write = some x ∧ ∀ w, (toNfa x).accepts w = true ↔
      (∃ (j p : Nat) (g : Str) (ts : List Nat) (v : Word), n.alphabet[j]? = some g ∧ s.transitions[j]? = some ts ∧ p ∈ ts ∧ w = g :: v ∧ v ∈ textLang cl (t p)) ∨
        (∃ p ∈ s.epsilonTransitions, w ∈ textLang cl (t p)) ∨ w = [] ∧ s.accepting = true := by
  have hmem : s ∈ n.states := List.mem_of_getElem? hs
  have hcol : ∀ {j : Nat} {ts : List Nat}, s.transitions[j]? = some ts → ∃ g, n.alphabet[j]? = some g := by
    intro j ts hj
    have := (List.getElem?_eq_some_iff.1 hj).1
    rw [hn.row_len s hmem] at this
    exact ⟨_, List.getElem?_eq_getElem this⟩
  have hst : ∀ {p : Nat}, p < n.states.length → Part cl (t p) := fun hp => hl.state _ _ (List.getElem?_eq_getElem hp)
  obtain ⟨x, hx, hxl, _⟩ := C115_compose cl h (s.equation a t (e q)) (by
    intro u hu
    unfold NfaState.equation at hu
    rw [foldr_parts, foldr_parts] at hu
    rcases hu with ⟨⟨j, p⟩, hm, hu⟩ | ⟨p, hp, hu⟩ | hu
    · obtain ⟨ts, hj, hp⟩ := mem_moves.1 hm
      obtain ⟨g, hg⟩ := hcol hj
      rcases List.mem_append.1 hu with hu | hu
      · rw [List.mem_singleton.1 hu]
        exact (hl.column j g hg).1
      · rw [List.mem_singleton.1 hu]
        exact hst (hn.targets s hmem ts (List.mem_of_getElem? hj) p hp)
    · rw [List.mem_singleton.1 hu]
      exact hst (hn.eps_targets s hmem p hp)
    · rw [List.mem_singleton.1 hu]
      exact (hl.ending q s hs).1)
  refine ⟨x, hx, fun w => ?_⟩
  rw [hxl]
  unfold NfaState.equation
  rw [foldr_lang, foldr_lang]
  refine or_congr ?_ (or_congr Iff.rfl ?_)
  · constructor
    · rintro ⟨⟨j, p⟩, hm, hw⟩
      obtain ⟨ts, hj, hp⟩ := mem_moves.1 hm
      obtain ⟨g, hg⟩ := hcol hj
      obtain ⟨u, hu, v, hv, rfl⟩ := Language.mem_mul.1 hw
      obtain ⟨⟨_, _, y, hy⟩, hc⟩ := hl.column j g hg
      have := (hc y hy u).1 ((mem_text hy u).1 hu)
      subst this
      exact ⟨j, p, g, ts, v, hg, hj, hp, rfl, hv⟩
    · rintro ⟨j, p, g, ts, v, hg, hj, hp, rfl, hv⟩
      obtain ⟨⟨_, _, y, hy⟩, hc⟩ := hl.column j g hg
      exact ⟨(j, p), mem_moves.2 ⟨ts, hj, hp⟩, Language.mem_mul.2 ⟨[g], (mem_text hy _).2 ((hc y hy _).2 rfl), v, hv, rfl⟩⟩
  · obtain ⟨⟨_, _, y, hy⟩, hc⟩ := hl.ending q s hs
    exact (mem_text hy w).trans (hc y hy w)

/-- **C132** Let there be a text for each state of an NFA such that the text of each state contains what one writes for its row. Then it accepts all
words that are accepted from the state on; so the text of the initial state accepts all words that the NFA accepts. -/
theorem C132_contains (cl : Str → Nat) (h : Segmentation cl) (n : Nfa) (hn : n.WF) (a e t : Nat → Str) (hl : Labels cl n a e t)
    (hle : ∀ (q : Nat) (s : NfaState), n.states[q]? = some s → TextLe cl (s.equation a t (e q)).write (t q)) :
    (∀ q < n.states.length, ∃ x, regex cl (t q) = some x ∧ ∀ w, (∃ r, n.Path q w r ∧ n.Acc r) → (toNfa x).accepts w = true) ∧
      ∃ x, regex cl (t n.initialState) = some x ∧ ∀ w, n.accepts w = true → (toNfa x).accepts w = true := by
  have key : ∀ q w r, n.Path q w r → n.Acc r → w ∈ textLang cl (t q) := by
    intro q w r hp hr
    have step : ∀ {q s w}, n.states[q]? = some s → ((∃ (j p : Nat) (g : Str) (ts : List Nat) (v : Word), n.alphabet[j]? = some g ∧ s.transitions[j]? = some ts ∧
        p ∈ ts ∧ w = g :: v ∧ v ∈ textLang cl (t p)) ∨ (∃ p ∈ s.epsilonTransitions, w ∈ textLang cl (t p)) ∨ w = [] ∧ s.accepting = true) →
        w ∈ textLang cl (t q) := by
      intro q s w hs hw
      obtain ⟨x, hx, hxl⟩ := row h hn hl hs
      obtain ⟨x', y, hx', hy, hxy⟩ := hle q s hs
      rw [hx] at hx'
      cases hx'
      exact (mem_text hy w).2 (hxy w ((hxl w).2 hw))
    induction hp with
    | nil q =>
      obtain ⟨s, hs, ha⟩ := hr
      exact step hs (.inr (.inr ⟨rfl, ha⟩))
    | eps hs ht _ ih => exact step hs (.inr (.inl ⟨_, ht, ih hr⟩))
    | step hs he hts ht _ ih => exact step hs (.inl ⟨_, _, _, _, _, he, hts, ht, rfl, ih hr⟩)
  have all : ∀ q < n.states.length, ∃ x, regex cl (t q) = some x ∧ ∀ w, (∃ r, n.Path q w r ∧ n.Acc r) → (toNfa x).accepts w = true := by
    intro q hq
    obtain ⟨_, _, x, hx⟩ := hl.state q _ (List.getElem?_eq_getElem hq)
    exact ⟨x, hx, fun w ⟨r, h1, h2⟩ => (mem_text hx w).1 (key q w r h1 h2)⟩
  refine ⟨all, ?_⟩
  obtain ⟨x, hx, hxl⟩ := all _ hn.init_lt
  exact ⟨x, hx, fun w hw => hxl w ((C02_nfa_accepts_iff n hn w).1 hw)⟩

/-- **C132** If there are no epsilon moves, and the text of each state is contained in what one writes for its row, then it accepts no other words than
those accepted from the state on; so the text of the initial state accepts only words that the NFA accepts. -/
theorem C132_contained (cl : Str → Nat) (h : Segmentation cl) (n : Nfa) (hn : n.WF) (hε : n.hasEpsilonMoves = false) (a e t : Nat → Str)
    (hl : Labels cl n a e t)
    (hle : ∀ (q : Nat) (s : NfaState), n.states[q]? = some s → TextLe cl (t q) (s.equation a t (e q)).write) :
    (∀ q < n.states.length, ∃ x, regex cl (t q) = some x ∧ ∀ w, (toNfa x).accepts w = true → ∃ r, n.Path q w r ∧ n.Acc r) ∧
      ∃ x, regex cl (t n.initialState) = some x ∧ ∀ w, (toNfa x).accepts w = true → n.accepts w = true := by
  have none : ∀ s ∈ n.states, s.epsilonTransitions = [] := by
    intro s hs
    unfold Nfa.hasEpsilonMoves at hε
    rw [List.any_eq_false] at hε
    simpa using hε s hs
  have key : ∀ (w : Word) q, q < n.states.length → w ∈ textLang cl (t q) → ∃ r, n.Path q w r ∧ n.Acc r := by
    intro w
    induction w with
    | nil =>
      intro q hq hw
      have hs := List.getElem?_eq_getElem hq
      obtain ⟨x, hx, hxl⟩ := row h hn hl hs
      obtain ⟨y, x', hy, hx', hyx⟩ := hle q _ hs
      rw [hx] at hx'
      cases hx'
      rcases (hxl _).1 (hyx _ ((mem_text hy _).1 hw)) with ⟨_, _, _, _, _, _, _, _, h0, _⟩ | ⟨p, hp, _⟩ | ⟨_, ha⟩
      · cases h0
      · rw [none _ (List.getElem_mem hq)] at hp
        cases hp
      · exact ⟨q, .nil q, _, hs, ha⟩
    | cons g v ih =>
      intro q hq hw
      have hs := List.getElem?_eq_getElem hq
      obtain ⟨x, hx, hxl⟩ := row h hn hl hs
      obtain ⟨y, x', hy, hx', hyx⟩ := hle q _ hs
      rw [hx] at hx'
      cases hx'
      rcases (hxl _).1 (hyx _ ((mem_text hy _).1 hw)) with ⟨j, p, _, ts, _, hg, hts, hp, h0, hv⟩ | ⟨p, hp, _⟩ | ⟨h0, _⟩
      · cases h0
        obtain ⟨r, h1, h2⟩ := ih p (hn.targets _ (List.getElem_mem hq) ts (List.mem_of_getElem? hts) p hp) hv
        exact ⟨r, .step hs hg hts hp h1, h2⟩
      · rw [none _ (List.getElem_mem hq)] at hp
        cases hp
      · cases h0
  have all : ∀ q < n.states.length, ∃ x, regex cl (t q) = some x ∧ ∀ w, (toNfa x).accepts w = true → ∃ r, n.Path q w r ∧ n.Acc r := by
    intro q hq
    obtain ⟨_, _, x, hx⟩ := hl.state q _ (List.getElem?_eq_getElem hq)
    exact ⟨x, hx, fun w hw => key w q hq ((mem_text hx w).2 hw)⟩
  refine ⟨all, ?_⟩
  obtain ⟨x, hx, hxl⟩ := all _ hn.init_lt
  exact ⟨x, hx, fun w hw => (C02_nfa_accepts_iff n hn w).2 (hxl w hw)⟩

/-- **C132** So if there are no epsilon moves and the comparison of the text of each state with what one writes for its row says that they are
equivalent, the text of the initial state accepts exactly the words that the NFA accepts. -/
theorem C132_exact (cl : Str → Nat) (h : Segmentation cl) (n : Nfa) (hn : n.WF) (hε : n.hasEpsilonMoves = false) (a e t : Nat → Str)
    (hl : Labels cl n a e t)
    (heq : ∀ (q : Nat) (s : NfaState), n.states[q]? = some s → TextEq cl (t q) (s.equation a t (e q)).write) :
    ∃ x, regex cl (t n.initialState) = some x ∧ ∀ w, (toNfa x).accepts w = n.accepts w := by
  obtain ⟨_, x, hx, h1⟩ := C132_contains cl h n hn a e t hl (fun q s hs => by
    obtain ⟨y, z, hy, hz, hyz⟩ := heq q s hs
    exact ⟨z, y, hz, hy, fun w hw => (equivalent_words hyz w).trans hw⟩)
  obtain ⟨_, x', hx', h2⟩ := C132_contained cl h n hn hε a e t hl (fun q s hs => by
    obtain ⟨y, z, hy, hz, hyz⟩ := heq q s hs
    exact ⟨y, z, hy, hz, fun w hw => (equivalent_words hyz w).symm.trans hw⟩)
  rw [hx] at hx'
  cases hx'
  exact ⟨x, hx, fun w => Bool.eq_iff_iff.2 ⟨h2 w, h1 w⟩⟩

private theorem part2 (t : Str) (h : ∀ c ∈ t, ¬ WhiteSpace c) (hr : (regex cl1 t).isSome = true) : Part cl1 t := by
  refine ⟨⟨[], [], by simp, by simp, by simp, fun c hc => h c (List.mem_of_mem_head? hc), fun c hc => h c (List.mem_of_mem_getLast? hc)⟩, ?_,
    Option.isSome_iff_exists.1 hr⟩
  intro s _ hne r
  cases s with
  | nil => exact absurd rfl hne
  | cons c s => rfl

private theorem textEq2 {t u : Str} (h : (regex cl1 t).bind (fun a => (regex cl1 u).bind (fun b => (toNfa a).equivalentTo (toNfa b))) = some true) :
    TextEq cl1 t u := by
  obtain ⟨a, ha, h⟩ := Option.bind_eq_some_iff.1 h
  obtain ⟨b, hb, h⟩ := Option.bind_eq_some_iff.1 h
  exact ⟨a, b, ha, hb, h⟩

private theorem one_letter {t g : Str} (h : regex cl1 t = some (.chr (.grapheme g))) (x : RegexTree) (hx : regex cl1 t = some x) (w : Word) :
    (toNfa x).accepts w = true ↔ w = [g] := by
  rw [h] at hx
  cases hx
  rw [C34_to_nfa_accepts]
  exact ⟨fun hm => by cases hm; rfl, fun he => he ▸ .grapheme g⟩

private theorem yes_end {t : Str} {b : Bool} (hb : b = true) (h : regex cl1 t = some (.chr .epsilon)) (x : RegexTree) (hx : regex cl1 t = some x) (w : Word) :
    (toNfa x).accepts w = true ↔ w = [] ∧ b = true := by
  rw [h] at hx
  cases hx
  rw [C34_to_nfa_accepts]
  exact ⟨fun hm => by cases hm; exact ⟨rfl, hb⟩, fun he => he.1 ▸ .epsilon⟩

private theorem no_end {t : Str} {b : Bool} (hb : b = false) (h : regex cl1 t = some (.chr .empty)) (x : RegexTree) (hx : regex cl1 t = some x) (w : Word) :
    (toNfa x).accepts w = true ↔ w = [] ∧ b = true := by
  rw [h] at hx
  cases hx
  rw [C34_to_nfa_accepts]
  exact ⟨fun hm => (by cases hm), fun he => (by rw [hb] at he; cases he.2)⟩

private def colsBA : Nat → Str
  | 0 => c!"b"
  | _ => c!"a"

private theorem cols_letters (j : Nat) (g : Str) (hj : [s 'b', s 'a'][j]? = some g) :
    Part cl1 (colsBA j) ∧ ∀ x, regex cl1 (colsBA j) = some x → ∀ w, (toNfa x).accepts w = true ↔ w = [g] := by
  match j, hj with
  | 0, hj => cases hj; exact ⟨part2 _ (by decide) (by decide +kernel), one_letter rfl⟩
  | 1, hj => cases hj; exact ⟨part2 _ (by decide) (by decide +kernel), one_letter rfl⟩
  | j + 2, hj => cases hj

/-- Texts for the states of `evenA`, and for the ends. -/
private def textsA : Nat → Str
  | 0 => c!"(a|b)((a|b)(a|b))*"
  | 1 => c!"((a|b)(a|b))*"
  | _ => c!"a(a|b)((a|b)(a|b))*"

private def endsA : Nat → Str
  | 1 => c!"ε"
  | _ => c!"∅"

private theorem textsA_labels : Labels cl1 evenA colsBA endsA textsA where
  column := cols_letters
  ending q s hs := by
    match q, hs with
    | 0, hs => cases hs; exact ⟨part2 _ (by decide) (by decide +kernel), no_end rfl rfl⟩
    | 1, hs => cases hs; exact ⟨part2 _ (by decide) (by decide +kernel), yes_end rfl rfl⟩
    | 2, hs => cases hs; exact ⟨part2 _ (by decide) (by decide +kernel), no_end rfl rfl⟩
    | q + 3, hs => cases hs
  state q s hs := by
    match q, hs with
    | 0, hs => exact part2 _ (by decide) (by decide +kernel)
    | 1, hs => exact part2 _ (by decide) (by decide +kernel)
    | 2, hs => exact part2 _ (by decide) (by decide +kernel)
    | q + 3, hs => cases hs

private theorem textsA_rows (q : Nat) (s : NfaState) (hs : evenA.states[q]? = some s) :
    TextEq cl1 (textsA q) (s.equation colsBA textsA (endsA q)).write := by
  match q, hs with
  | 0, hs => cases hs; exact textEq2 (by decide +kernel)
  | 1, hs => cases hs; exact textEq2 (by decide +kernel)
  | 2, hs => cases hs; exact textEq2 (by decide +kernel)
  | q + 3, hs => cases hs

/-- The row of the first state of `evenA`, as a text. -/
example : (evenA.states[0].equation colsBA textsA (endsA 0)).write =
    c!"(((b)(((a|b)(a|b))*))|(((a)(((a|b)(a|b))*))|(∅)))" := by decide +kernel

private theorem textsA_le (q : Nat) (s : NfaState) (hs : evenA.states[q]? = some s) :
    TextLe cl1 (textsA q) (s.equation colsBA textsA (endsA q)).write := by
  obtain ⟨y, z, hy, hz, hyz⟩ := textsA_rows q s hs
  exact ⟨y, z, hy, hz, fun w hw => (equivalent_words hyz w).symm.trans hw⟩

private theorem textsA_ge (q : Nat) (s : NfaState) (hs : evenA.states[q]? = some s) :
    TextLe cl1 (s.equation colsBA textsA (endsA q)).write (textsA q) := by
  obtain ⟨y, z, hy, hz, hyz⟩ := textsA_rows q s hs
  exact ⟨z, y, hz, hy, fun w hw => (equivalent_words hyz w).trans hw⟩

example := C132_contains cl1 cl1_seg evenA evenA_wf colsBA endsA textsA textsA_labels textsA_ge
example := C132_contained cl1 cl1_seg evenA evenA_wf rfl colsBA endsA textsA textsA_labels textsA_le
example := C132_exact cl1 cl1_seg evenA evenA_wf rfl colsBA endsA textsA textsA_labels textsA_rows

/-- **C132** The same for a DFA, with the rows of its NFA. -/
theorem C132_dfa (cl : Str → Nat) (h : Segmentation cl) (d : Dfa) (hd : d.WF) (a e t : Nat → Str) (hl : Labels cl d.toNfa a e t)
    (heq : ∀ (q : Nat) (s : NfaState), d.toNfa.states[q]? = some s → TextEq cl (t q) (s.equation a t (e q)).write) :
    ∃ x, regex cl (t d.initialState) = some x ∧ ∀ w, (toNfa x).accepts w = d.accepts w := by
  obtain ⟨x, hx, hxl⟩ := C132_exact cl h d.toNfa (C18_to_nfa_lang d hd []).1 (C18_to_nfa_structure d).1 a e t hl heq
  rw [(C18_to_nfa_structure d).2.2.1] at hx
  exact ⟨x, hx, fun w => by rw [hxl, (C18_to_nfa_lang d hd w).2.2]⟩

/-- Texts for the states of `endsB`. -/
private def textsB : Nat → Str
  | 0 => c!"ε|(a|b)*b"
  | _ => c!"(a|b)*b"

private def endsB' : Nat → Str
  | 0 => c!"ε"
  | _ => c!"∅"

private theorem textsB_labels : Labels cl1 endsB.toNfa colsBA endsB' textsB where
  column := cols_letters
  ending q s hs := by
    match q, hs with
    | 0, hs => cases hs; exact ⟨part2 _ (by decide) (by decide +kernel), yes_end rfl rfl⟩
    | 1, hs => cases hs; exact ⟨part2 _ (by decide) (by decide +kernel), no_end rfl rfl⟩
    | q + 2, hs => cases hs
  state q s hs := by
    match q, hs with
    | 0, hs => exact part2 _ (by decide) (by decide +kernel)
    | 1, hs => exact part2 _ (by decide) (by decide +kernel)
    | q + 2, hs => cases hs

example := C132_dfa cl1 cl1_seg endsB endsB_wf colsBA endsB' textsB textsB_labels (fun q s hs => by
  match q, hs with
  | 0, hs => cases hs; exact textEq2 (by decide +kernel)
  | 1, hs => cases hs; exact textEq2 (by decide +kernel)
  | q + 2, hs => cases hs)

/-- **C132** Conversely, if the text of each state of an NFA (also with epsilon moves) accepts exactly the words accepted from the state on, then it
accepts the same words as what one writes for its row. -/
theorem C132_solves (cl : Str → Nat) (h : Segmentation cl) (n : Nfa) (hn : n.WF) (a e t : Nat → Str) (hl : Labels cl n a e t)
    (hL : ∀ q < n.states.length, ∀ x, regex cl (t q) = some x → ∀ w, (toNfa x).accepts w = true ↔ ∃ r, n.Path q w r ∧ n.Acc r)
    (q : Nat) (s : NfaState) (hs : n.states[q]? = some s) :
    ∃ x y, regex cl (t q) = some x ∧ regex cl (s.equation a t (e q)).write = some y ∧ ∀ w, (toNfa x).accepts w = (toNfa y).accepts w := by
  obtain ⟨_, _, x, hx⟩ := hl.state q s hs
  obtain ⟨y, hy, hyl⟩ := row h hn hl hs
  have hq := (List.getElem?_eq_some_iff.1 hs).1
  have hm : s ∈ n.states := List.mem_of_getElem? hs
  have hT : ∀ {p w}, p < n.states.length → (w ∈ textLang cl (t p) ↔ ∃ r, n.Path p w r ∧ n.Acc r) := by
    intro p w hp
    obtain ⟨_, _, z, hz⟩ := hl.state p _ (List.getElem?_eq_getElem hp)
    rw [mem_text hz, hL p hp z hz]
  refine ⟨x, y, hx, hy, fun w => Bool.eq_iff_iff.2 ?_⟩
  rw [hL q hq x hx, hyl]
  constructor
  · rintro ⟨r, hp, hr⟩
    cases hp with
    | nil =>
      obtain ⟨s', hs', ha⟩ := hr
      rw [hs] at hs'
      cases hs'
      exact .inr (.inr ⟨rfl, ha⟩)
    | eps hs' ht hp =>
      rw [hs] at hs'
      cases hs'
      exact .inr (.inl ⟨_, ht, (hT (hn.eps_targets s hm _ ht)).2 ⟨r, hp, hr⟩⟩)
    | step hs' he hts ht hp =>
      rw [hs] at hs'
      cases hs'
      exact .inl ⟨_, _, _, _, _, he, hts, ht, rfl, (hT (hn.targets s hm _ (List.mem_of_getElem? hts) _ ht)).2 ⟨r, hp, hr⟩⟩
  · rintro (⟨j, p, g, ts, v, hg, hts, hp, rfl, hv⟩ | ⟨p, hp, hw⟩ | ⟨rfl, ha⟩)
    · obtain ⟨r, h1, h2⟩ := (hT (hn.targets s hm _ (List.mem_of_getElem? hts) _ hp)).1 hv
      exact ⟨r, .step hs hg hts hp h1, h2⟩
    · obtain ⟨r, h1, h2⟩ := (hT (hn.eps_targets s hm _ hp)).1 hw
      exact ⟨r, .eps hs hp h1, h2⟩
    · exact ⟨q, .nil q, s, hs, ha⟩

example := C132_solves cl1 cl1_seg evenA evenA_wf colsBA endsA textsA textsA_labels (fun q hq x hx w => by
  obtain ⟨y, hy, h1⟩ := (C132_contains cl1 cl1_seg evenA evenA_wf colsBA endsA textsA textsA_labels textsA_ge).1 q hq
  obtain ⟨z, hz, h2⟩ := (C132_contained cl1 cl1_seg evenA evenA_wf rfl colsBA endsA textsA textsA_labels textsA_le).1 q hq
  rw [hx] at hy hz
  cases hy
  cases hz
  exact ⟨h2 w, h1 w⟩)

/-- An NFA with an epsilon move from its only state to itself. -/
private def loopNfa : Nfa := { alphabet := [s 'b', s 'a'], states := [⟨s '0', true, false, [0], [[], []]⟩], initialState := 0 }

private theorem loopNfa_wf : loopNfa.WF := Nfa.wf_of_wfB (by decide)

private theorem loop_labels (u : Str) (hu : Part cl1 u) : Labels cl1 loopNfa colsBA (fun _ => c!"∅") (fun _ => u) where
  column := cols_letters
  ending q s hs := by
    match q, hs with
    | 0, hs => cases hs; exact ⟨part2 _ (by decide) (by decide +kernel), no_end rfl rfl⟩
    | q + 1, hs => cases hs
  state _ _ _ := hu

/-- For this NFA any text without further elements contains what one writes for the row. -/
example := C132_contains cl1 cl1_seg loopNfa loopNfa_wf _ _ _ (loop_labels c!"a|b" (part2 _ (by decide) (by decide +kernel))) (fun q s hs => by
  match q, hs with
  | 0, hs =>
    cases hs
    obtain ⟨y, z, hy, hz, hyz⟩ := textEq2 (t := c!"a|b") (u := (NfaState.equation colsBA (fun _ => c!"a|b") c!"∅" ⟨s '0', true, false, [0], [[], []]⟩).write)
      (by decide +kernel)
    exact ⟨z, y, hz, hy, fun w hw => (equivalent_words hyz w).trans hw⟩
  | q + 1, hs => cases hs)

/-- **C132** With epsilon moves it is not enough that the texts solve the equations: they can accept more words than the NFA. -/
theorem C132_epsilon_false : ¬ ∀ (n : Nfa) (a e t : Nat → Str), n.WF → Labels cl1 n a e t →
    (∀ (q : Nat) (s : NfaState), n.states[q]? = some s → TextEq cl1 (t q) (s.equation a t (e q)).write) →
      ∃ x, regex cl1 (t n.initialState) = some x ∧ ∀ w, (toNfa x).accepts w = n.accepts w := by
  intro h
  obtain ⟨x, hx, hxl⟩ := h loopNfa _ _ _ loopNfa_wf (loop_labels c!"a|b" (part2 _ (by decide) (by decide +kernel))) (fun q s hs => by
    match q, hs with
    | 0, hs => cases hs; exact textEq2 (by decide +kernel)
    | q + 1, hs => cases hs)
  have h1 : (regex cl1 c!"a|b").map (fun e => (toNfa e).accepts [s 'a']) = some true := by decide +kernel
  rw [hx] at h1
  exact absurd ((hxl [s 'a']).symm.trans (Option.some.inj h1)) (by decide +kernel)

/-- The same NFA with another initial state. -/
private def startAt (n : Nfa) (q : Nat) : Nfa :=
  { n with states := n.states.mapIdx (fun i s => { s with initial := decide (i = q) }), initialState := q }

private theorem startAt_get (n : Nfa) (q i : Nat) :
    (startAt n q).states[i]? = (n.states[i]?).map (fun s => { s with initial := decide (i = q) }) := by
  simp [startAt]

private theorem startAt_mem {n : Nfa} {q : Nat} {s : NfaState} (hs : s ∈ (startAt n q).states) :
    ∃ s' ∈ n.states, s.name = s'.name ∧ s.transitions = s'.transitions ∧ s.epsilonTransitions = s'.epsilonTransitions := by
  obtain ⟨i, hi⟩ := List.getElem?_of_mem hs
  rw [startAt_get] at hi
  obtain ⟨s', h1, rfl⟩ := Option.map_eq_some_iff.1 hi
  exact ⟨s', List.mem_of_getElem? h1, rfl, rfl, rfl⟩

private theorem startAt_wf {n : Nfa} (hn : n.WF) {q : Nat} (hq : q < n.states.length) : (startAt n q).WF where
  alphabet_nodup := hn.alphabet_nodup
  names_nodup := by
    have : (startAt n q).states.map (·.name) = n.states.map (·.name) := by
      apply List.ext_getElem?
      intro i
      rw [List.getElem?_map, startAt_get, List.getElem?_map, Option.map_map]
      rfl
    rw [this]
    exact hn.names_nodup
  row_len s hs := by
    obtain ⟨s', h1, _, h2, _⟩ := startAt_mem hs
    rw [h2]
    exact hn.row_len s' h1
  targets s hs := by
    obtain ⟨s', h1, _, h2, _⟩ := startAt_mem hs
    have : (startAt n q).states.length = n.states.length := by simp [startAt]
    rw [h2, this]
    exact hn.targets s' h1
  eps_targets s hs := by
    obtain ⟨s', h1, _, _, h2⟩ := startAt_mem hs
    have : (startAt n q).states.length = n.states.length := by simp [startAt]
    rw [h2, this]
    exact hn.eps_targets s' h1
  init_lt := by simpa [startAt] using hq
  init_flag i s hs := by
    rw [startAt_get] at hs
    obtain ⟨s', _, rfl⟩ := Option.map_eq_some_iff.1 hs
    simp [startAt]

private theorem startAt_acc {n : Nfa} {q r : Nat} : (startAt n q).Acc r ↔ n.Acc r := by
  constructor
  · rintro ⟨s, hs, ha⟩
    rw [startAt_get] at hs
    obtain ⟨s', h1, rfl⟩ := Option.map_eq_some_iff.1 hs
    exact ⟨s', h1, ha⟩
  · rintro ⟨s, hs, ha⟩
    exact ⟨{ s with initial := decide (r = q) }, by rw [startAt_get, hs]; rfl, ha⟩

private theorem startAt_path {n : Nfa} {q p r : Nat} {w : Word} : (startAt n q).Path p w r ↔ n.Path p w r := by
  constructor
  · intro hp
    induction hp with
    | nil => exact .nil _
    | eps hs ht _ ih =>
      rw [startAt_get] at hs
      obtain ⟨s', h1, rfl⟩ := Option.map_eq_some_iff.1 hs
      exact .eps h1 ht ih
    | step hs he hts ht _ ih =>
      rw [startAt_get] at hs
      obtain ⟨s', h1, rfl⟩ := Option.map_eq_some_iff.1 hs
      exact .step h1 he hts ht ih
  · intro hp
    induction hp with
    | nil => exact .nil _
    | @eps a _ _ _ s hs ht _ ih =>
      exact .eps (s := { s with initial := decide (a = q) }) (by rw [startAt_get, hs]; rfl) ht ih
    | @step a _ _ _ _ _ s _ hs he hts ht _ ih =>
      exact .step (s := { s with initial := decide (a = q) }) (by rw [startAt_get, hs]; rfl) he hts ht ih

/-- **C132** For every automaton whose elements are clusters wherever they are written there are such texts: for its columns, its ends, and for each
state one that accepts exactly the words accepted from the state on. -/
theorem C132_exists (cl : Str → Nat) (h : Segmentation cl) (hb : ∀ s r, cl (s ++ ')' :: ')' :: r) = cl (s ++ [')'])) (n : Nfa) (hn : n.WF)
    (hshape : ∀ g ∈ n.alphabet, (∃ c g', g = c :: g' ∧ ¬ IsReserved c) ∨ (∃ c, g = [c] ∧ IsReserved c ∧ c.toNat < 128))
    (hcluster : ∀ g ∈ n.alphabet, ∀ r, (r = [] ∨ (∃ c r', r = c :: r' ∧ IsReserved c) ∨ ∃ g' ∈ n.alphabet, g' <+: r) → cl (g ++ r) = g.length) :
    ∃ a e t, Labels cl n a e t ∧
      ∀ q < n.states.length, ∀ x, regex cl (t q) = some x → ∀ w, (toNfa x).accepts w = true ↔ ∃ r, n.Path q w r ∧ n.Acc r := by
  have part : ∀ u, (∃ x, regex cl (['('] ++ u ++ [')']) = some x) → Part cl (['('] ++ u ++ [')']) := by
    intro u hx
    refine ⟨⟨[], [], by simp, by simp, by simp, ?_, ?_⟩, ?_, hx⟩
    · intro c hc
      simp at hc
      subst hc
      unfold WhiteSpace; decide
    · intro c hc
      rw [List.getLast?_concat] at hc
      simp at hc
      subst hc
      unfold WhiteSpace; decide
    · intro s hs hne r
      have : s.getLast? = some ')' := by
        obtain ⟨v, hv⟩ := hs
        have := congrArg List.getLast? hv
        rw [List.getLast?_concat, List.getLast?_append_of_ne_nil _ hne] at this
        exact this
      obtain ⟨s', rfl⟩ := List.getLast?_eq_some_iff.1 this
      have := hb s' r
      simpa using this
  have lang : ∀ t0 : RegexTree, Proper t0 → (∀ g ∈ t0.graphemes, g ∈ n.alphabet) →
      ∃ z, Part cl z ∧ ∀ x, regex cl z = some x → ∀ w, (toNfa x).accepts w = true ↔ w ∈ t0.denote := by
    intro t0 g1 g2
    obtain ⟨u, t, h1, _, h2⟩ := tree_text cl h n.alphabet hshape hcluster t0 g1 g2
    refine ⟨_, part u ⟨t, h1⟩, fun x hx => ?_⟩
    rw [h1] at hx
    cases hx
    exact h2
  have ha : ∀ j : Nat, ∃ z, ∀ g, n.alphabet[j]? = some g → Part cl z ∧ ∀ x, regex cl z = some x → ∀ w, (toNfa x).accepts w = true ↔ w = [g] := by
    intro j
    cases hj : n.alphabet[j]? with
    | none => exact ⟨[], by simp⟩
    | some g =>
      obtain ⟨z, h1, h2⟩ := lang (.chr (.grapheme g)) trivial (by simpa [graphemes] using List.mem_of_getElem? hj)
      refine ⟨z, fun g' hg => ⟨h1, ?_⟩⟩
      cases hg
      exact h2
  have he : ∀ q : Nat, ∃ z, ∀ s, n.states[q]? = some s →
      Part cl z ∧ ∀ x, regex cl z = some x → ∀ w, (toNfa x).accepts w = true ↔ w = [] ∧ s.accepting = true := by
    intro q
    cases hq : n.states[q]? with
    | none => exact ⟨[], by simp⟩
    | some s =>
      cases hs : s.accepting with
      | true =>
        obtain ⟨z, h1, h2⟩ := lang (.chr .epsilon) trivial (by simp [graphemes])
        refine ⟨z, fun s' hs' => ⟨h1, fun x hx w => ?_⟩⟩
        cases hs'
        rw [h2 x hx, hs]
        exact ⟨fun h => ⟨h, rfl⟩, fun h => h.1⟩
      | false =>
        obtain ⟨z, h1, h2⟩ := lang (.chr .empty) trivial (by simp [graphemes])
        refine ⟨z, fun s' hs' => ⟨h1, fun x hx w => ?_⟩⟩
        cases hs'
        rw [h2 x hx, hs]
        exact ⟨fun h => absurd h (by simp [denote]), fun h => by cases h.2⟩
  have ht : ∀ q : Nat, ∃ z, q < n.states.length →
      Part cl z ∧ ∀ x, regex cl z = some x → ∀ w, (toNfa x).accepts w = true ↔ ∃ r, n.Path q w r ∧ n.Acc r := by
    intro q
    by_cases hq : q < n.states.length
    · obtain ⟨d, _, hw, hal, hl, _⟩ := C19_to_dfa _ (startAt_wf hn hq)
      obtain ⟨k, M, hM⟩ := regular_fin (Dfa.regular hw)
      obtain ⟨t0, g1, g2, g3⟩ := expressible_of_dfa (A := n.alphabet) M M.start
      obtain ⟨z, h1, h2⟩ := lang t0 g1 g2
      refine ⟨z, fun _ => ⟨h1, fun x hx w => ?_⟩⟩
      rw [h2 x hx, g3]
      have key : w ∈ M.acceptsFrom M.start ↔ ∃ r, n.Path q w r ∧ n.Acc r := by
        change w ∈ M.accepts ↔ _
        rw [hM]
        refine (hl w).trans ?_
        unfold Nfa.Lang
        simp only [startAt_path, startAt_acc]
        rfl
      constructor
      · exact fun h => key.1 h.1
      · intro h
        refine ⟨key.2 h, ?_⟩
        have : d.Lang w := (hl w).2 (by
          obtain ⟨r, h1, h2⟩ := h
          exact ⟨r, startAt_path.2 h1, startAt_acc.2 h2⟩)
        obtain ⟨r, hr, _⟩ := this
        have := Dfa.run_over hr
        rw [hal] at this
        exact this
    · exact ⟨[], fun h => absurd h hq⟩
  choose a ha using ha
  choose e he using he
  choose t ht using ht
  exact ⟨a, e, t, ⟨fun j g hg => ha j g hg, fun q s hs => he q s hs, fun q s hs => (ht q (List.getElem?_eq_some_iff.1 hs).1).1⟩,
    fun q hq => (ht q hq).2⟩

/-- The hypotheses for `epsNfa` (which has epsilon moves); the texts then solve the equations by `C132_solves`. -/
example := C132_exists cl1 cl1_seg (by intro s r; cases s <;> simp [cl1]) epsNfa epsNfa_wf (by
  intro g hg
  simp only [epsNfa, List.mem_cons, List.not_mem_nil, or_false] at hg
  rcases hg with rfl | rfl <;> exact Or.inl ⟨_, [], rfl, by unfold IsReserved; decide⟩) (by
  intro g hg r _
  simp only [epsNfa, List.mem_cons, List.not_mem_nil, or_false] at hg
  rcases hg with rfl | rfl <;> simp [cl1, s])

/-- **C132** By the rules of Unicode, clusters break between two closing parentheses, as `C132_exists` needs it. -/
theorem C132_unicode (P : Unicode.Table) (hA : P.Ascii) (u r : Str) :
    Unicode.firstCluster P (u ++ ')' :: ')' :: r) = Unicode.firstCluster P (u ++ [')']) := by
  have := C115_unicode P hA ')' (by decide) (u ++ [')']) (by
    intro e he
    rw [List.getLast?_concat] at he
    cases he
    rw [hA.other ')' (by decide) (by decide)]
    decide) (u ++ [')']) (List.suffix_refl _) (by simp) r
  simpa using this

example := C132_unicode sampleTable sampleTable_ascii c!"e\u0301"

end Dandy
