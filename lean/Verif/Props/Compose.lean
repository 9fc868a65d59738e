import Verif.Proofs.Compose
import Verif.Props.RegexParser
import Verif.Props.Unicode
import Verif.Props.NfaToDfa
/-! # C115: expressions can be put together as texts -/

namespace Dandy
open Samples RegexParser RegexTree

/-- The words accepted by the NFA of a text; none if it is not an expression. -/
def textLang (cl : Str → Nat) (t : Str) : Language Str := {w | ∃ e, regex cl t = some e ∧ (toNfa e).accepts w = true}

private theorem text_expr {cl : Str → Nat} (h : Segmentation cl) {t : Str} {e : RegexTree} (ht : Trimmed t t) (he : regex cl t = some e) :
    ExprL cl t [] (textLang cl t) e.graphemes := by
  refine (C36_language cl h t t ht e he _ _).2 ⟨?_, rfl⟩
  ext w
  change (∃ e', regex cl t = some e' ∧ (toNfa e').accepts w = true) ↔ Matches e w
  rw [he]
  simp only [Option.some.injEq, exists_eq_left', C34_to_nfa_accepts]

private theorem write_trimmed (x : Shape Str) : Trimmed x.write x.write := by
  refine ⟨[], [], by simp, by simp, by simp, ?_, ?_⟩
  · cases x <;> (intro c hc; simp only [Shape.write, List.append_assoc, List.singleton_append, List.head?_cons] at hc; cases hc; decide)
  · cases x <;> (intro c hc; simp only [Shape.write, List.getLast?_append, List.getLast?_cons_cons, List.getLast?_singleton] at hc; cases hc; decide)

/-- **C115** Texts of expressions can be put together: written in parentheses, with bars, one after the other, and with `*` and `+`, they are an
expression, which means what one expects from the parts, and has their elements. Each part is without white space around it, and does not swallow
the parenthesis written after it. -/
theorem C115_compose (cl : Str → Nat) (h : Segmentation cl) (x : Shape Str)
    (hp : ∀ t ∈ x.parts, Trimmed t t ∧ Ends cl ')' t ∧ ∃ e, regex cl t = some e) :
    ∃ e, regex cl x.write = some e ∧ (∀ w, (toNfa e).accepts w = true ↔ w ∈ x.lang (textLang cl)) ∧
      ∀ g, g ∈ (toNfa e).alphabet ↔ ∃ t ∈ x.parts, ∃ e', regex cl t = some e' ∧ g ∈ (toNfa e').alphabet := by
  obtain ⟨gs, h1, h2⟩ := shape_atom h (textLang cl) x (fun t ht => by
    obtain ⟨a, b, e, he⟩ := hp t ht
    exact ⟨b, _, text_expr h a he⟩) []
  rw [List.append_nil] at h1
  have h3 : ExprL cl x.write [] (x.lang (textLang cl)) gs := .one (.one (.atom h1))
  obtain ⟨e, he⟩ := (C36_accepts_iff cl h _ _ (write_trimmed x)).2 ⟨_, _, h3⟩
  obtain ⟨h4, h5, h6, _⟩ := C36_to_nfa cl h _ _ (write_trimmed x) e he _ _ h3
  refine ⟨e, he, h4, fun g => ?_⟩
  rw [h6, h2]
  constructor
  · rintro ⟨t, ht, hs, k1, k2⟩
    obtain ⟨a, b, e', he'⟩ := hp t ht
    refine ⟨t, ht, e', he', ?_⟩
    exact ((C36_to_nfa cl h _ _ a e' he' _ _ k1).2.2.1 g).2 k2
  · rintro ⟨t, ht, e', he', hg⟩
    obtain ⟨a, b, _⟩ := hp t ht
    have k1 := text_expr h a he'
    exact ⟨t, ht, _, k1, ((C36_to_nfa cl h _ _ a e' he' _ _ k1).2.2.1 g).1 hg⟩

/-- Parts with bars of their own: `(((a|b))((b|c*)*))`. -/
example : ((Shape.seq (.text c!"a|b") (.star (.text c!"b|c*"))).write = c!"((a|b)((b|c*)*))") ∧
    (∀ t ∈ (Shape.seq (.text c!"a|b") (.star (.text c!"b|c*"))).parts, Trimmed t t ∧ Ends cl1 ')' t ∧ ∃ e, regex cl1 t = some e) := by
  refine ⟨by decide, ?_⟩
  intro t ht
  have hE : Ends cl1 ')' t := by
    intro s _ hne r
    cases s with
    | nil => exact absurd rfl hne
    | cons c s => simp [cl1]
  simp only [Shape.parts, List.cons_append, List.nil_append, List.mem_cons, List.not_mem_nil, or_false] at ht
  rcases ht with rfl | rfl
  · exact ⟨⟨[], [], by simp, by simp, by simp, by intro c hc; cases hc; decide, by intro c hc; cases hc; decide⟩, hE, _, rfl⟩
  · exact ⟨⟨[], [], by simp, by simp, by simp, by intro c hc; cases hc; decide, by intro c hc; cases hc; decide⟩, hE, _, rfl⟩

/-- **C115** A bar between two expressions needs no parentheses. -/
theorem C115_bar (cl : Str → Nat) (h : Segmentation cl) (t u : Str) (ht : Trimmed t t) (hu : Trimmed u u) (he : Ends cl '|' t) (a b : RegexTree)
    (ha : regex cl t = some a) (hb : regex cl u = some b) :
    ∃ e, regex cl (t ++ '|' :: u) = some e ∧ ∀ w, (toNfa e).accepts w = true ↔ (toNfa a).accepts w = true ∨ (toNfa b).accepts w = true := by
  have h1 := expr_extend h he u (text_expr h ht ha) (List.suffix_refl _)
  have h2 := expr_bar h1 rfl (text_expr h hu hb)
  have htu : Trimmed (t ++ '|' :: u) (t ++ '|' :: u) := by
    obtain ⟨_, _, _, _, _, k1, _⟩ := ht
    obtain ⟨_, _, _, _, _, _, k2⟩ := hu
    refine ⟨[], [], by simp, by simp, by simp, ?_, ?_⟩
    · intro c hc
      cases t with
      | nil => cases hc; decide
      | cons d t => exact k1 c hc
    · intro c hc
      rw [List.getLast?_append, List.getLast?_cons] at hc
      cases hl : u.getLast? with
      | none => rw [hl] at hc; cases hc; decide
      | some d => rw [hl] at hc; cases hc; exact k2 d hl
  obtain ⟨e, he⟩ := (C36_accepts_iff cl h _ _ htu).2 ⟨_, _, h2⟩
  refine ⟨e, he, fun w => ?_⟩
  rw [(C36_to_nfa cl h _ _ htu e he _ _ h2).1 w]
  change (∃ e', regex cl t = some e' ∧ (toNfa e').accepts w = true) ∨ (∃ e', regex cl u = some e' ∧ (toNfa e').accepts w = true) ↔ _
  rw [ha, hb]
  simp

example : (regex cl1 c!"ab|c").map (fun e => (toNfa e).accepts [s 'c']) = some true ∧
    (regex cl1 c!"d*").isSome = true ∧ (regex cl1 c!"ab|c|d*").map (fun e => (toNfa e).accepts [s 'd', s 'd']) = some true := by decide +kernel

theorem lang_map {α β : Type} (f : α → β) (ρ : β → Language Str) : ∀ x : Shape α, (x.map f).lang ρ = x.lang (fun a => ρ (f a))
  | .text _ => rfl
  | .alt x y => by simp only [Shape.map, Shape.lang, lang_map f ρ x, lang_map f ρ y]
  | .seq x y => by simp only [Shape.map, Shape.lang, lang_map f ρ x, lang_map f ρ y]
  | .star x => by simp only [Shape.map, Shape.lang, lang_map f ρ x]
  | .plus x => by simp only [Shape.map, Shape.lang, lang_map f ρ x]

theorem parts_map {α β : Type} (f : α → β) : ∀ x : Shape α, (x.map f).parts = x.parts.map f
  | .text _ => rfl
  | .alt x y => by simp only [Shape.map, Shape.parts, parts_map f x, parts_map f y, List.map_append]
  | .seq x y => by simp only [Shape.map, Shape.parts, parts_map f x, parts_map f y, List.map_append]
  | .star x => by simp only [Shape.map, Shape.parts, parts_map f x]
  | .plus x => by simp only [Shape.map, Shape.parts, parts_map f x]

theorem lang_congr {α : Type} {ρ σ : α → Language Str} : ∀ x : Shape α, (∀ a ∈ x.parts, ρ a = σ a) → x.lang ρ = x.lang σ
  | .text a, h => h a (by simp [Shape.parts])
  | .alt x y, h => by
    simp only [Shape.parts, List.mem_append] at h
    simp only [Shape.lang, lang_congr x (fun a ha => h a (.inl ha)), lang_congr y (fun a ha => h a (.inr ha))]
  | .seq x y, h => by
    simp only [Shape.parts, List.mem_append] at h
    simp only [Shape.lang, lang_congr x (fun a ha => h a (.inl ha)), lang_congr y (fun a ha => h a (.inr ha))]
  | .star x, h => by simp only [Shape.lang, lang_congr x h]
  | .plus x, h => by simp only [Shape.lang, lang_congr x h]

/-- **C115** Equals for equals: if parts are replaced by others that `equivalent_to` says are equivalent, then it also says so of the whole. -/
theorem C115_replace (cl : Str → Nat) (h : Segmentation cl) (x : Shape (Str × Str))
    (hp : ∀ p ∈ x.parts, (Trimmed p.1 p.1 ∧ Ends cl ')' p.1) ∧ (Trimmed p.2 p.2 ∧ Ends cl ')' p.2) ∧
      ∃ a b, regex cl p.1 = some a ∧ regex cl p.2 = some b ∧ (toNfa a).equivalentTo (toNfa b) = some true) :
    ∃ a b, regex cl (x.map (·.1)).write = some a ∧ regex cl (x.map (·.2)).write = some b ∧ (toNfa a).equivalentTo (toNfa b) = some true := by
  have eqv : ∀ a b : RegexTree, (toNfa a).equivalentTo (toNfa b) = some true ↔
      SameElems (toNfa a).alphabet (toNfa b).alphabet ∧ ∀ w, (toNfa a).accepts w = true ↔ (toNfa b).accepts w = true := by
    intro a b
    obtain ⟨r, h1, h2⟩ := C20_nfa_equivalent_to (toNfa a) (toNfa b) (toNfa_wf a) (toNfa_wf b)
    rw [h1]
    simp only [C02_nfa_accepts_iff _ (toNfa_wf a), C02_nfa_accepts_iff _ (toNfa_wf b), Option.some.injEq]
    exact h2
  obtain ⟨a, ha1, ha2, ha3⟩ := C115_compose cl h (x.map (·.1)) (by
    intro t ht
    rw [parts_map, List.mem_map] at ht
    obtain ⟨p, hp', rfl⟩ := ht
    obtain ⟨k1, _, a, b, k2, _⟩ := hp p hp'
    exact ⟨k1.1, k1.2, a, k2⟩)
  obtain ⟨b, hb1, hb2, hb3⟩ := C115_compose cl h (x.map (·.2)) (by
    intro t ht
    rw [parts_map, List.mem_map] at ht
    obtain ⟨p, hp', rfl⟩ := ht
    obtain ⟨_, k1, a, b, _, k2, _⟩ := hp p hp'
    exact ⟨k1.1, k1.2, b, k2⟩)
  refine ⟨a, b, ha1, hb1, (eqv a b).2 ⟨?_, ?_⟩⟩
  · intro g
    rw [ha3, hb3, parts_map, parts_map]
    simp only [List.mem_map, exists_exists_and_eq_and]
    refine exists_congr fun p => and_congr_right fun hp' => ?_
    obtain ⟨_, _, a', b', k1, k2, k3⟩ := hp p hp'
    rw [k1, k2]
    simp only [Option.some.injEq, exists_eq_left']
    exact ((eqv a' b').1 k3).1 g
  · intro w
    rw [ha2, hb2, lang_map, lang_map, lang_congr x (ρ := fun p => textLang cl p.1) (σ := fun p => textLang cl p.2)]
    intro p hp'
    obtain ⟨_, _, a', b', k1, k2, k3⟩ := hp p hp'
    ext v
    change (∃ e', regex cl p.1 = some e' ∧ (toNfa e').accepts v = true) ↔ ∃ e', regex cl p.2 = some e' ∧ (toNfa e').accepts v = true
    rw [k1, k2]
    simp only [Option.some.injEq, exists_eq_left']
    exact ((eqv a' b').1 k3).2 v

/-- **C115** Laws: two ways to put parts together that mean the same for all languages give expressions that accept the same words, whatever the
parts. -/
theorem C115_laws (cl : Str → Nat) (h : Segmentation cl) (x y : Shape Nat) (hxy : ∀ ρ : Nat → Language Str, x.lang ρ = y.lang ρ) (t : Nat → Str)
    (hp : ∀ i ∈ x.parts ++ y.parts, Trimmed (t i) (t i) ∧ Ends cl ')' (t i) ∧ ∃ e, regex cl (t i) = some e) :
    ∃ a b, regex cl (x.map t).write = some a ∧ regex cl (y.map t).write = some b ∧
      ∀ w, (toNfa a).accepts w = (toNfa b).accepts w := by
  obtain ⟨a, ha1, ha2, _⟩ := C115_compose cl h (x.map t) (by
    intro u hu
    rw [parts_map, List.mem_map] at hu
    obtain ⟨i, hi, rfl⟩ := hu
    exact hp i (List.mem_append_left _ hi))
  obtain ⟨b, hb1, hb2, _⟩ := C115_compose cl h (y.map t) (by
    intro u hu
    rw [parts_map, List.mem_map] at hu
    obtain ⟨i, hi, rfl⟩ := hu
    exact hp i (List.mem_append_right _ hi))
  refine ⟨a, b, ha1, hb1, fun w => ?_⟩
  rw [Bool.eq_iff_iff, ha2, hb2, lang_map, lang_map, hxy]

/-- A law about bars and one about stars: `(x|y)z` is `xz|yz`, and `(x*)*` is `x*`. -/
example : (∀ ρ : Nat → Language Str, (Shape.seq (.alt (.text 0) (.text 1)) (.text 2)).lang ρ =
      (Shape.alt (.seq (.text 0) (.text 2)) (.seq (.text 1) (.text 2))).lang ρ) ∧
    ∀ ρ : Nat → Language Str, (Shape.star (.star (.text 0))).lang ρ = (Shape.star (.text 0)).lang ρ :=
  ⟨fun _ => add_mul _ _ _, fun _ => kstar_idem _⟩

private theorem first_ends {P : Unicode.Table} (hA : P.Ascii) {c : Char} (hc : 32 ≤ c.toNat ∧ c.toNat < 127) (x : Str) (rest : Str) :
    ∀ (d : Char) (left cur : Str), cur ≠ [] → (∀ e ∈ (d :: rest).getLast?, P.gcb e ≠ .prepend) →
      (Unicode.segFrom P (d :: left) cur (rest ++ c :: x)).head? = (Unicode.segFrom P (d :: left) cur rest).head? := by
  induction rest with
  | nil =>
    intro d left cur hne hp
    have hk : Unicode.keeps P (d :: left) c = false := by
      have g := hA.other c hc.1 hc.2
      have g2 := hA.pict c (by omega)
      have g3 := hA.incb c (by omega)
      unfold Unicode.keeps
      dsimp only
      have hpr : Unicode.pairRule (P.gcb d) (P.gcb c) = some false ∨ Unicode.pairRule (P.gcb d) (P.gcb c) = none := by
        rw [g]
        have := hp d rfl
        revert this
        cases P.gcb d <;> decide
      rcases hpr with e | e
      · rw [e]; rfl
      · rw [e]
        simp [Unicode.conjunct, Unicode.emoji, Unicode.flag, g, g2, g3]
    simp [Unicode.segFrom, hk, hne]
  | cons e rest ih =>
    intro d left cur hne hp
    rw [List.cons_append]
    unfold Unicode.segFrom
    rw [List.getLast?_cons_cons] at hp
    by_cases hk : Unicode.keeps P (d :: left) e = true
    · rw [if_pos hk, if_pos hk]
      exact ih e (d :: left) (cur ++ [e]) (by simp) hp
    · rw [if_neg hk, if_neg hk, if_neg hne, if_neg hne]
      rfl

/-- **C115** By the rules of Unicode, a text can be followed by any printable ASCII character, in particular by a parenthesis or a bar, if its last
character has not the property Prepend. -/
theorem C115_unicode (P : Unicode.Table) (hA : P.Ascii) (c : Char) (hc : 32 ≤ c.toNat ∧ c.toNat < 127) (t : Str)
    (ht : ∀ e ∈ t.getLast?, P.gcb e ≠ .prepend) : Ends (Unicode.firstCluster P) c t := by
  intro s hs hne r
  cases s with
  | nil => exact absurd rfl hne
  | cons d s =>
    have hl : ∀ e ∈ (d :: s).getLast?, P.gcb e ≠ .prepend := by
      intro e he
      obtain ⟨a, rfl⟩ := hs
      exact ht e (by rw [List.getLast?_append, he]; rfl)
    have h1 := first_ends hA hc r s d [] [d] (by simp) hl
    have e1 : Unicode.keeps P [] d = false := rfl
    unfold Unicode.firstCluster Unicode.graphemes
    rw [List.cons_append]
    simp only [Unicode.segFrom, e1, Bool.false_eq_true, if_false, if_true]
    rw [h1]

/-- The rules apply to texts that end with emojis or marks. -/
example : sampleTable.Ascii ∧ (∀ e ∈ c!"a|e\u0301*👨\u200D👧".getLast?, sampleTable.gcb e ≠ .prepend) ∧
    (regex (Unicode.firstCluster sampleTable) (Shape.star (.text c!"a|e\u0301*👨\u200D👧")).write).map
      (fun e => (toNfa e).accepts [s 'a', c!"e\u0301", c!"👨\u200D👧", s 'a']) = some true :=
  ⟨sampleTable_ascii, by decide +kernel, by decide +kernel⟩

/-- **C115** ASCII texts (without carriage returns) can be followed by any ASCII character, whatever the segmentation does with other texts. -/
theorem C115_ascii (cl : Str → Nat) (hb : BreaksAscii cl) (c : Char) (hc : c.toNat < 128) (t : Str) (ht : ∀ e ∈ t, e.toNat < 128 ∧ e ≠ '\r') :
    Ends cl c t := by
  intro s hs hne r
  cases s with
  | nil => exact absurd rfl hne
  | cons d s =>
    have hd := ht d (hs.subset List.mem_cons_self)
    rw [List.cons_append, hb d _ hd.1 hd.2, hb d _ hd.1 hd.2]
    · intro e he
      exact .inl (ht e (hs.subset (List.mem_cons_of_mem _ (List.mem_of_mem_head? he)))).1
    · intro e he
      cases s with
      | nil => cases he; exact .inl hc
      | cons f s => cases he; exact .inl (ht e (hs.subset (by simp))).1

example : ∀ e ∈ c!"(a|b)*\\*", e.toNat < 128 ∧ e ≠ '\r' := by decide

/-- **C115 does not hold without the conditions** With white space around it a text is an expression for what is between, but in parentheses the
white space are elements. A character with the property Prepend is an expression, but in parentheses it is not. -/
theorem C115_conditions_false :
    (regex cl1 c!" a").map (fun e => (toNfa e).accepts [s 'a']) = some true ∧
    (regex cl1 (Shape.text c!" a").write).map (fun e => ((toNfa e).accepts [s 'a'], (toNfa e).accepts [s ' ', s 'a'])) = some (false, true) ∧
    (regex (Unicode.firstCluster sampleTable) c!"\u0600").map (fun e => (toNfa e).accepts [c!"\u0600"]) = some true ∧
    regex (Unicode.firstCluster sampleTable) (Shape.text c!"\u0600").write = none := by
  refine ⟨by decide +kernel, by decide +kernel, by decide +kernel, ?_⟩
  have : (regex (Unicode.firstCluster sampleTable) (Shape.text c!"\u0600").write).isNone = true := by decide +kernel
  exact Option.isNone_iff_eq_none.1 this

end Dandy
