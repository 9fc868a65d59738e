import Verif.Props.Decide
import Verif.Props.DfaProduct
/-! # C134: expressions over different elements, made comparable -/

namespace Dandy
open Samples RegexParser RegexTree

private theorem lang_acc (e : RegexTree) (w : Word) : (toNfa e).Lang w ↔ (toNfa e).accepts w = true :=
  (C02_nfa_accepts_iff _ (C35_to_nfa_valid e) w).symm

/-- **C134** With `((t)|((u)(∅)))` instead of `t`, the same words match, and the elements of `u` are elements of the automaton, too. -/
theorem C134_padded (cl : Str → Nat) (h : Segmentation cl) (h0 : Ends cl ')' c!"∅") (t u : Str) (ht : Trimmed t t) (hu : Trimmed u u)
    (et : Ends cl ')' t) (eu : Ends cl ')' u) (a b : RegexTree) (ha : regex cl t = some a) (hb : regex cl u = some b) :
    ∃ e, regex cl (c!"((" ++ t ++ c!")|((" ++ u ++ c!")(∅)))") = some e ∧ (∀ w, (toNfa e).accepts w = (toNfa a).accepts w) ∧
      ∀ g, g ∈ (toNfa e).alphabet ↔ g ∈ a.graphemes ∨ g ∈ b.graphemes := by
  have hz : regex cl c!"∅" = some (.chr .empty) := rfl
  have tz : Trimmed c!"∅" c!"∅" := ⟨[], [], by simp, by simp, by simp, by decide, by decide⟩
  obtain ⟨e, e1, e2, e3⟩ := C115_compose cl h (.alt (.text t) (.seq (.text u) (.text c!"∅"))) (by
    simp only [Shape.parts, List.cons_append, List.nil_append, List.mem_cons, List.not_mem_nil, or_false]
    rintro x (rfl | rfl | rfl)
    · exact ⟨ht, et, _, ha⟩
    · exact ⟨hu, eu, _, hb⟩
    · exact ⟨tz, h0, _, hz⟩)
  have hw : (Shape.alt (.text t) (.seq (.text u) (.text c!"∅"))).write = c!"((" ++ t ++ c!")|((" ++ u ++ c!")(∅)))" := by
    simp [Shape.write]
  have hn : ∀ w, (toNfa (.chr .empty)).accepts w ≠ true := by
    intro w hw
    cases (C34_to_nfa_accepts (.chr .empty) w).1 hw
  refine ⟨e, hw ▸ e1, fun w => ?_, fun g => ?_⟩
  · rw [Bool.eq_iff_iff, e2]
    change w ∈ textLang cl t + textLang cl u * textLang cl c!"∅" ↔ _
    rw [Language.mem_add, Language.mem_mul]
    constructor
    · rintro (⟨e', h1, h2⟩ | ⟨x, _, y, ⟨e', h1, h2⟩, _⟩)
      · rw [ha] at h1; cases h1; exact h2
      · rw [hz] at h1; cases h1; exact absurd h2 (hn y)
    · exact fun hx => .inl ⟨a, ha, hx⟩
  · rw [e3]
    simp [Shape.parts, ha, hb, hz, (C35_to_nfa_alphabet a).1, (C35_to_nfa_alphabet b).1, (C35_to_nfa_alphabet (.chr .empty)).1, graphemes]

private theorem padded_both (cl : Str → Nat) (h : Segmentation cl) (h0 : Ends cl ')' c!"∅") (t u : Str) (ht : Trimmed t t) (hu : Trimmed u u)
    (et : Ends cl ')' t) (eu : Ends cl ')' u) (a b : RegexTree) (ha : regex cl t = some a) (hb : regex cl u = some b) :
    ∃ e f, regex cl (c!"((" ++ t ++ c!")|((" ++ u ++ c!")(∅)))") = some e ∧ regex cl (c!"((" ++ u ++ c!")|((" ++ t ++ c!")(∅)))") = some f ∧
      (∀ w, (toNfa e).accepts w = (toNfa a).accepts w) ∧ (∀ w, (toNfa f).accepts w = (toNfa b).accepts w) ∧
      SameElems (toNfa e).alphabet (toNfa f).alphabet := by
  obtain ⟨e, e1, e2, e3⟩ := C134_padded cl h h0 t u ht hu et eu a b ha hb
  obtain ⟨f, f1, f2, f3⟩ := C134_padded cl h h0 u t hu ht eu et b a hb ha
  exact ⟨e, f, e1, f1, e2, f2, fun g => by rw [e3, f3, or_comm]⟩

/-- **C134** Done for both texts, `equivalent_to` says whether the expressions match the same words, whichever elements occur in them. -/
theorem C134_equivalent (cl : Str → Nat) (h : Segmentation cl) (h0 : Ends cl ')' c!"∅") (t u : Str) (ht : Trimmed t t) (hu : Trimmed u u)
    (et : Ends cl ')' t) (eu : Ends cl ')' u) (a b : RegexTree) (ha : regex cl t = some a) (hb : regex cl u = some b) :
    ∃ e f c, regex cl (c!"((" ++ t ++ c!")|((" ++ u ++ c!")(∅)))") = some e ∧
      regex cl (c!"((" ++ u ++ c!")|((" ++ t ++ c!")(∅)))") = some f ∧ (toNfa e).equivalentTo (toNfa f) = some c ∧
      (c = true ↔ ∀ w, Matches a w ↔ Matches b w) := by
  obtain ⟨e, f, e1, f1, e2, f2, hs⟩ := padded_both cl h h0 t u ht hu et eu a b ha hb
  obtain ⟨c, c1, c2⟩ := C20_nfa_equivalent_to (toNfa e) (toNfa f) (C35_to_nfa_valid e) (C35_to_nfa_valid f)
  refine ⟨e, f, c, e1, f1, c1, ?_⟩
  rw [c2, and_iff_right hs]
  simp only [lang_acc, e2, f2, C34_to_nfa_accepts]

/-- **C134** And the set operations succeed, of the NFAs and of the DFAs made from them, and give the words that match either of the expressions,
both of them, only the first, or exactly one. -/
theorem C134_operations (cl : Str → Nat) (h : Segmentation cl) (h0 : Ends cl ')' c!"∅") (t u : Str) (ht : Trimmed t t) (hu : Trimmed u u)
    (et : Ends cl ')' t) (eu : Ends cl ')' u) (a b : RegexTree) (ha : regex cl t = some a) (hb : regex cl u = some b)
    (ord : List Nfa.OPair → List Nfa.OPair) (hord : ∀ l, (ord l).Perm l) (ord' : List (Nat × Nat) → List (Nat × Nat)) (hord' : ∀ l, (ord' l).Perm l) :
    ∃ e f, regex cl (c!"((" ++ t ++ c!")|((" ++ u ++ c!")(∅)))") = some e ∧ regex cl (c!"((" ++ u ++ c!")|((" ++ t ++ c!")(∅)))") = some f ∧
      (∃ p, (toNfa e).union (toNfa f) = some (.ok p) ∧ ∀ w, p.accepts w = true ↔ Matches a w ∨ Matches b w) ∧
      (∃ p, Nfa.intersection ord (toNfa e) (toNfa f) = some (some p) ∧ ∀ w, p.accepts w = true ↔ Matches a w ∧ Matches b w) ∧
      ∃ d o, (toNfa e).toDfa = some d ∧ (toNfa f).toDfa = some o ∧
        (∃ p, Dfa.difference ord' d o = some (some p) ∧ ∀ w, p.accepts w = true ↔ Matches a w ∧ ¬ Matches b w) ∧
        ∃ p, Dfa.symmetricDifference ord' d o = some (some p) ∧ ∀ w, p.accepts w = true ↔ ¬ (Matches a w ↔ Matches b w) := by
  obtain ⟨e, f, e1, f1, e2, f2, hs⟩ := padded_both cl h h0 t u ht hu et eu a b ha hb
  have ve := C35_to_nfa_valid e
  have vf := C35_to_nfa_valid f
  have le : ∀ w, (toNfa e).Lang w ↔ Matches a w := fun w => by rw [lang_acc, e2, C34_to_nfa_accepts]
  have lf : ∀ w, (toNfa f).Lang w ↔ Matches b w := fun w => by rw [lang_acc, f2, C34_to_nfa_accepts]
  refine ⟨e, f, e1, f1, ?_, ?_, ?_⟩
  · obtain ⟨p, hp⟩ := (C21_union_err _ _ ve vf).2 hs
    obtain ⟨p1, _, p3, _⟩ := C21_union_lang _ _ p ve vf hp
    exact ⟨p, hp, fun w => by rw [C02_nfa_accepts_iff p p1, p3, le, lf]⟩
  · obtain ⟨⟨r, hr⟩, h2⟩ := C22_intersection_none_iff ord hord _ _ ve vf
    cases r with
    | none => exact absurd hs (h2.1 hr)
    | some p =>
      obtain ⟨p1, _, p3, _⟩ := C22_intersection_lang ord hord _ _ p ve vf hr
      exact ⟨p, hr, fun w => by rw [C02_nfa_accepts_iff p p1, p3, le, lf]⟩
  · obtain ⟨d, d1, d2, d3, d4, _⟩ := C19_to_dfa _ ve
    obtain ⟨o, o1, o2, o3, o4, _⟩ := C19_to_dfa _ vf
    obtain ⟨_, _, ⟨p, p1, p2, _, p4⟩, q, q1, q2, _, q4⟩ := (C09_dfa_set_operations ord' hord' d o d2 o2).2 (by rw [d3, o3]; exact hs)
    exact ⟨d, o, d1, o1, ⟨p, p1, fun w => by rw [C01_dfa_accepts_iff p p2, p4, d4, o4, le, lf]⟩,
      q, q1, fun w => by rw [C01_dfa_accepts_iff q q2, q4, d4, o4, le, lf]⟩

/-- **C134** With a text of the wanted elements as `u`, inverting gives the words over these and the elements of `t` that `t` does not match. -/
theorem C134_complement (cl : Str → Nat) (h : Segmentation cl) (h0 : Ends cl ')' c!"∅") (t u : Str) (ht : Trimmed t t) (hu : Trimmed u u)
    (et : Ends cl ')' t) (eu : Ends cl ')' u) (a b : RegexTree) (ha : regex cl t = some a) (hb : regex cl u = some b) :
    ∃ e d, regex cl (c!"((" ++ t ++ c!")|((" ++ u ++ c!")(∅)))") = some e ∧ (toNfa e).toDfa = some d ∧
      ∀ w, d.invert.accepts w = true ↔ (∀ g ∈ w, g ∈ a.graphemes ∨ g ∈ b.graphemes) ∧ ¬ Matches a w := by
  obtain ⟨e, e1, e2, e3⟩ := C134_padded cl h h0 t u ht hu et eu a b ha hb
  obtain ⟨d, d1, d2, d3, _, d5⟩ := C19_to_dfa _ (C35_to_nfa_valid e)
  refine ⟨e, d, e1, d1, fun w => ?_⟩
  rw [(C07_invert_complement d d2 w).2.2, d5, e2, ← Bool.not_eq_true, C34_to_nfa_accepts, d3]
  simp only [Over, e3]

/-- Different elements in the two texts. -/
example : Ends cl1 ')' c!"∅" ∧ Ends cl1 ')' c!"a*" ∧ Trimmed c!"a*" c!"a*" ∧
    (regex cl1 c!"a*").isSome = true ∧ (regex cl1 c!"a*|b∅").isSome = true :=
  ⟨fun s _ hn _ => by cases s <;> simp_all [cl1], fun s _ hn _ => by cases s <;> simp_all [cl1],
    ⟨[], [], by simp, by simp, by simp, by decide, by decide⟩, by decide +kernel, by decide +kernel⟩

/-- **C134** As they stand, expressions that match the same words need not be equivalent, nor be united or intersected. -/
theorem C134_unpadded_false : ∃ a b, regex cl1 c!"a*" = some a ∧ regex cl1 c!"((a*)|((b)(∅)))" = some b ∧ (∀ w, Matches a w ↔ Matches b w) ∧
    (toNfa a).equivalentTo (toNfa b) = some false ∧ (toNfa a).union (toNfa b) = some (.error (toNfa a, toNfa b)) := by
  have hE : ∀ t, Ends cl1 ')' t := fun t s _ hn _ => by cases s <;> simp_all [cl1]
  obtain ⟨a, ha, ga⟩ : ∃ a, regex cl1 c!"a*" = some a ∧ a.graphemes = [c!"a"] := by
    have : (regex cl1 c!"a*").map graphemes = some [c!"a"] := by decide +kernel
    simpa using this
  obtain ⟨b, hb, gb⟩ : ∃ a, regex cl1 c!"b" = some a ∧ a.graphemes = [c!"b"] := by
    have : (regex cl1 c!"b").map graphemes = some [c!"b"] := by decide +kernel
    simpa using this
  obtain ⟨e, e1, e2, e3⟩ := C134_padded cl1 cl1_seg (hE _) c!"a*" c!"b" ⟨[], [], by simp, by simp, by simp, by decide, by decide⟩
    ⟨[], [], by simp, by simp, by simp, by decide, by decide⟩ (hE _) (hE _) a b ha hb
  have hs : ¬ SameElems (toNfa a).alphabet (toNfa e).alphabet := by
    intro hs
    have := (hs c!"b").2 ((e3 _).2 (.inr (by rw [gb]; simp)))
    rw [(C35_to_nfa_alphabet a).1, ga] at this
    revert this
    decide
  obtain ⟨c, c1, c2⟩ := C20_nfa_equivalent_to (toNfa a) (toNfa e) (C35_to_nfa_valid a) (C35_to_nfa_valid e)
  refine ⟨a, e, ha, e1, fun w => by rw [← C34_to_nfa_accepts, ← C34_to_nfa_accepts, e2], ?_,
    (C21_union_err _ _ (C35_to_nfa_valid a) (C35_to_nfa_valid e)).1 hs⟩
  cases c with
  | true => exact absurd (c2.1 rfl).1 hs
  | false => exact c1

/-- **C134** Where the elements are the same, the union of the NFAs is equivalent to the NFA of the texts with a bar between them. -/
theorem C134_bar (cl : Str → Nat) (h : Segmentation cl) (t u : Str) (ht : Trimmed t t) (hu : Trimmed u u) (et : Ends cl ')' t) (eu : Ends cl ')' u)
    (a b : RegexTree) (ha : regex cl t = some a) (hb : regex cl u = some b) :
    ∃ e, regex cl (c!"((" ++ t ++ c!")|(" ++ u ++ c!"))") = some e ∧
      ((∃ p, (toNfa a).union (toNfa b) = some (.ok p) ∧ p.equivalentTo (toNfa e) = some true) ↔ SameElems a.graphemes b.graphemes) := by
  obtain ⟨e, e1, e2, e3⟩ := C115_compose cl h (.alt (.text t) (.text u)) (by
    simp only [Shape.parts, List.cons_append, List.nil_append, List.mem_cons, List.not_mem_nil, or_false]
    rintro x (rfl | rfl)
    · exact ⟨ht, et, _, ha⟩
    · exact ⟨hu, eu, _, hb⟩)
  have hw : (Shape.alt (.text t) (.text u)).write = c!"((" ++ t ++ c!")|(" ++ u ++ c!"))" := by simp [Shape.write]
  have he : ∀ w, (toNfa e).accepts w = true ↔ (toNfa a).accepts w = true ∨ (toNfa b).accepts w = true := by
    intro w
    rw [e2]
    change w ∈ textLang cl t + textLang cl u ↔ _
    rw [Language.mem_add]
    unfold textLang
    simp only [ha, hb, Option.some.injEq, exists_eq_left']
    rfl
  have hg : ∀ g, g ∈ (toNfa e).alphabet ↔ g ∈ a.graphemes ∨ g ∈ b.graphemes := by
    intro g
    rw [e3]
    simp [Shape.parts, ha, hb, (C35_to_nfa_alphabet a).1, (C35_to_nfa_alphabet b).1]
  have hs : SameElems (toNfa a).alphabet (toNfa b).alphabet ↔ SameElems a.graphemes b.graphemes := by
    simp only [SameElems, (C35_to_nfa_alphabet a).1, (C35_to_nfa_alphabet b).1]
  have va := C35_to_nfa_valid a
  have vb := C35_to_nfa_valid b
  refine ⟨e, hw ▸ e1, ?_, fun hab => ?_⟩
  · rintro ⟨p, hp, _⟩
    by_contra hc
    rw [(C21_union_err _ _ va vb).1 (fun hx => hc (hs.1 hx))] at hp
    cases hp
  · obtain ⟨p, hp⟩ := (C21_union_err _ _ va vb).2 (hs.2 hab)
    obtain ⟨p1, p2, p3, _⟩ := C21_union_lang _ _ p va vb hp
    obtain ⟨c, c1, c2⟩ := C20_nfa_equivalent_to p (toNfa e) p1 (C35_to_nfa_valid e)
    have : c = true := c2.2 ⟨fun g => by
      rw [p2, hg, (C35_to_nfa_alphabet a).1]
      exact ⟨.inl, fun hx => hx.elim id (hab g).2⟩, fun w => by rw [p3, lang_acc, lang_acc, lang_acc, he]⟩
    exact ⟨p, hp, this ▸ c1⟩

/-- Texts with the same elements in another order, of which one has more words. -/
example : (regex cl1 c!"ab*").map graphemes = some [c!"a", c!"b"] ∧ (regex cl1 c!"(b|a)+").map graphemes = some [c!"b", c!"a", c!"b", c!"a"] := by decide +kernel

end Dandy
