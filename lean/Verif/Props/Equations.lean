import Verif.Props.Compose
/-! # C126: equations between expressions, checked with letters -/

namespace Dandy
open Samples RegexParser RegexTree

/-- The words that arise by replacing every element of a word by a word of the language given for it. -/
private def subst (σ : Str → Language Str) (L : Language Str) : Language Str := {w | ∃ v ∈ L, w ∈ (v.map σ).prod}

private theorem mem_subst {σ : Str → Language Str} {L : Language Str} {w : List Str} : w ∈ subst σ L ↔ ∃ v ∈ L, w ∈ (v.map σ).prod := Iff.rfl

private theorem subst_add (σ : Str → Language Str) (L M : Language Str) : subst σ (L + M) = subst σ L + subst σ M := by
  ext w
  simp only [mem_subst, Language.mem_add]
  constructor
  · rintro ⟨v, hv | hv, h⟩
    · exact .inl ⟨v, hv, h⟩
    · exact .inr ⟨v, hv, h⟩
  · rintro (⟨v, hv, h⟩ | ⟨v, hv, h⟩)
    · exact ⟨v, .inl hv, h⟩
    · exact ⟨v, .inr hv, h⟩

private theorem subst_mul (σ : Str → Language Str) (L M : Language Str) : subst σ (L * M) = subst σ L * subst σ M := by
  ext w
  simp only [mem_subst, Language.mem_mul]
  constructor
  · rintro ⟨_, ⟨a, ha, b, hb, rfl⟩, h⟩
    rw [List.map_append, List.prod_append, Language.mem_mul] at h
    obtain ⟨p, hp, q, hq, rfl⟩ := h
    exact ⟨p, ⟨a, ha, hp⟩, q, ⟨b, hb, hq⟩, rfl⟩
  · rintro ⟨p, ⟨a, ha, hp⟩, q, ⟨b, hb, hq⟩, rfl⟩
    refine ⟨_, ⟨a, ha, b, hb, rfl⟩, ?_⟩
    rw [List.map_append, List.prod_append, Language.mem_mul]
    exact ⟨p, hp, q, hq, rfl⟩

private theorem subst_star (σ : Str → Language Str) (L : Language Str) : subst σ (KStar.kstar L) = KStar.kstar (subst σ L) := by
  ext w
  rw [mem_subst, Language.mem_kstar]
  constructor
  · rintro ⟨_, ⟨vs, rfl, hv⟩, h⟩
    induction vs generalizing w with
    | nil =>
      rw [List.flatten_nil, List.map_nil, List.prod_nil, Language.mem_one] at h
      exact ⟨[], by simpa using h, by simp⟩
    | cons v vs ih =>
      rw [List.flatten_cons, List.map_append, List.prod_append, Language.mem_mul] at h
      obtain ⟨p, hp, q, hq, rfl⟩ := h
      obtain ⟨ps, rfl, h2⟩ := ih q (fun y hy => hv y (List.mem_cons_of_mem _ hy)) hq
      refine ⟨p :: ps, by simp, fun y hy => ?_⟩
      rcases List.mem_cons.1 hy with rfl | hy
      · exact ⟨v, hv v List.mem_cons_self, hp⟩
      · exact h2 y hy
  · rintro ⟨ws, rfl, hw⟩
    induction ws with
    | nil => exact ⟨[], ⟨[], rfl, by simp⟩, by simp [Language.mem_one]⟩
    | cons p ps ih =>
      obtain ⟨_, ⟨vs, rfl, hv⟩, h2⟩ := ih (fun y hy => hw y (List.mem_cons_of_mem _ hy))
      obtain ⟨v, h3, h4⟩ := hw p List.mem_cons_self
      refine ⟨_, ⟨v :: vs, rfl, fun y hy => ?_⟩, ?_⟩
      · rcases List.mem_cons.1 hy with rfl | hy
        · exact h3
        · exact hv y hy
      · rw [List.flatten_cons, List.map_append, List.prod_append, List.flatten_cons, Language.mem_mul]
        exact ⟨p, h4, _, h2, rfl⟩

private theorem lang_subst {α : Type} {σ : Str → Language Str} {ρ τ : α → Language Str} : ∀ x : Shape α, (∀ a ∈ x.parts, τ a = subst σ (ρ a)) →
    x.lang τ = subst σ (x.lang ρ)
  | .text a, h => h a (by simp [Shape.parts])
  | .alt x y, h => by
    simp only [Shape.parts, List.mem_append] at h
    simp only [Shape.lang, lang_subst x (fun a ha => h a (.inl ha)), lang_subst y (fun a ha => h a (.inr ha)), subst_add]
  | .seq x y, h => by
    simp only [Shape.parts, List.mem_append] at h
    simp only [Shape.lang, lang_subst x (fun a ha => h a (.inl ha)), lang_subst y (fun a ha => h a (.inr ha)), subst_mul]
  | .star x, h => by simp only [Shape.lang, lang_subst x h, subst_star]
  | .plus x, h => by simp only [Shape.lang, lang_subst x h, subst_mul, subst_star]

/-- Words without replaced elements stay as they are. -/
private theorem prod_fixed {σ : Str → Language Str} : ∀ v : List Str, (∀ a ∈ v, σ a = {[a]}) → (v.map σ).prod = {v}
  | [], _ => by ext w; simp [Language.mem_one]; rfl
  | a :: v, h => by
    rw [List.map_cons, List.prod_cons, h a List.mem_cons_self, prod_fixed v (fun b hb => h b (List.mem_cons_of_mem _ hb))]
    ext x
    rw [Language.mem_mul]
    constructor
    · rintro ⟨_, rfl, _, rfl, rfl⟩; rfl
    · rintro rfl; exact ⟨_, rfl, _, rfl, rfl⟩

private theorem subst_fixed {σ : Str → Language Str} {L : Language Str} (h : ∀ v ∈ L, ∀ a ∈ v, σ a = {[a]}) : subst σ L = L := by
  ext w
  rw [mem_subst]
  constructor
  · rintro ⟨v, hv, hw⟩
    rw [prod_fixed v (h v hv)] at hw
    have : w = v := hw
    rw [this]; exact hv
  · intro hw
    exact ⟨w, hw, by rw [prod_fixed w (h w hw)]; rfl⟩

private theorem eqv (a b : RegexTree) : (toNfa a).equivalentTo (toNfa b) = some true ↔
    SameElems (toNfa a).alphabet (toNfa b).alphabet ∧ ∀ w, (toNfa a).accepts w = true ↔ (toNfa b).accepts w = true := by
  obtain ⟨r, h1, h2⟩ := C20_nfa_equivalent_to (toNfa a) (toNfa b) (toNfa_wf a) (toNfa_wf b)
  rw [h1]
  simp only [C02_nfa_accepts_iff _ (toNfa_wf a), C02_nfa_accepts_iff _ (toNfa_wf b), Option.some.injEq]
  exact h2

/-- A text that can be used as a part of an expression in parentheses. -/
def Part (cl : Str → Nat) (t : Str) : Prop := Trimmed t t ∧ Ends cl ')' t ∧ ∃ e, regex cl t = some e

private theorem textLang_eq {cl : Str → Nat} {t : Str} {e : RegexTree} (h : regex cl t = some e) :
    ∀ w, w ∈ textLang cl t ↔ (toNfa e).accepts w = true := by
  intro w
  change (∃ e', regex cl t = some e' ∧ (toNfa e').accepts w = true) ↔ _
  rw [h]
  simp

private theorem letter_matches {k : Str} {w : List Str} : Matches (.chr (.grapheme k)) w ↔ w ∈ ({[k]} : Language Str) :=
  ⟨fun h => by cases h; rfl, fun h => by cases h; exact .grapheme k⟩

open Classical in
/-- **C126** An equation between expressions, checked with letters, holds for all expressions: if `equivalent_to` says that two expressions are
equivalent, then it also says so after all occurrences of some letters (which do not appear within the other parts) have been replaced by any
expressions in parentheses. -/
theorem C126_equations (cl : Str → Nat) (h : Segmentation cl) (x y : Shape Nat) (V : Nat → Prop) (g l t : Nat → Str)
    (hl : ∀ i ∈ x.parts ++ y.parts, Part cl (l i)) (ht : ∀ i ∈ x.parts ++ y.parts, Part cl (t i))
    (hV : ∀ i ∈ x.parts ++ y.parts, V i → regex cl (l i) = some (.chr (.grapheme (g i))))
    (hF : ∀ i ∈ x.parts ++ y.parts, ¬ V i → t i = l i ∧ ∀ j ∈ x.parts ++ y.parts, V j → ∀ e, regex cl (l i) = some e → g j ∉ (toNfa e).alphabet)
    (hg : ∀ i ∈ x.parts ++ y.parts, ∀ j ∈ x.parts ++ y.parts, V i → V j → g i = g j → i = j)
    (a b : RegexTree) (ha : regex cl (x.map l).write = some a) (hb : regex cl (y.map l).write = some b)
    (hab : (toNfa a).equivalentTo (toNfa b) = some true) :
    ∃ a' b', regex cl (x.map t).write = some a' ∧ regex cl (y.map t).write = some b' ∧ (toNfa a').equivalentTo (toNfa b') = some true := by
  have comp : ∀ (z : Shape Nat) (r : Nat → Str), (∀ i ∈ z.parts, Part cl (r i)) → ∃ e, regex cl (z.map r).write = some e ∧
      (∀ w, (toNfa e).accepts w = true ↔ w ∈ z.lang (fun i => textLang cl (r i))) ∧
      ∀ c, c ∈ (toNfa e).alphabet ↔ ∃ i ∈ z.parts, ∃ e', regex cl (r i) = some e' ∧ c ∈ (toNfa e').alphabet := by
    intro z r hr
    obtain ⟨e, h1, h2, h3⟩ := C115_compose cl h (z.map r) (by
      intro u hu
      rw [parts_map, List.mem_map] at hu
      obtain ⟨i, hi, rfl⟩ := hu
      exact hr i hi)
    refine ⟨e, h1, fun w => by rw [h2, lang_map], fun c => ?_⟩
    rw [h3, parts_map]
    simp only [List.mem_map, exists_exists_and_eq_and]
  obtain ⟨a0, a1, a2, a3⟩ := comp x l (fun i hi => hl i (List.mem_append_left _ hi))
  obtain ⟨b0, b1, b2, b3⟩ := comp y l (fun i hi => hl i (List.mem_append_right _ hi))
  rw [ha] at a1; cases a1
  rw [hb] at b1; cases b1
  obtain ⟨a', c1, c2, c3⟩ := comp x t (fun i hi => ht i (List.mem_append_left _ hi))
  obtain ⟨b', d1, d2, d3⟩ := comp y t (fun i hi => ht i (List.mem_append_right _ hi))
  refine ⟨a', b', c1, d1, (eqv a' b').2 ?_⟩
  obtain ⟨e1, e2⟩ := (eqv a b).1 hab
  have letter : ∀ c k, c ∈ (toNfa (.chr (.grapheme k))).alphabet ↔ c = k := by
    intro c k
    rw [(C35_to_nfa_alphabet _).1]
    simp [RegexTree.graphemes]
  constructor
  · -- the elements
    have half : ∀ (z z' : Shape Nat), (∀ i ∈ z.parts, i ∈ x.parts ++ y.parts) → (∀ i ∈ z'.parts, i ∈ x.parts ++ y.parts) →
        (∀ c, (∃ i ∈ z.parts, ∃ e', regex cl (l i) = some e' ∧ c ∈ (toNfa e').alphabet) → ∃ i ∈ z'.parts, ∃ e', regex cl (l i) = some e' ∧ c ∈ (toNfa e').alphabet) →
        ∀ c, (∃ i ∈ z.parts, ∃ e', regex cl (t i) = some e' ∧ c ∈ (toNfa e').alphabet) → ∃ i ∈ z'.parts, ∃ e', regex cl (t i) = some e' ∧ c ∈ (toNfa e').alphabet := by
      intro z z' hz hz' hc c ⟨i, hi, e', k1, k2⟩
      by_cases hv : V i
      · obtain ⟨j, hj, e'', k3, k4⟩ := hc (g i) ⟨i, hi, _, hV i (hz i hi) hv, (letter _ _).2 rfl⟩
        by_cases hw : V j
        · rw [hV j (hz' j hj) hw] at k3
          cases k3
          have := hg i (hz i hi) j (hz' j hj) hv hw ((letter _ _).1 k4)
          subst this
          exact ⟨i, hj, e', k1, k2⟩
        · exact absurd k4 ((hF j (hz' j hj) hw).2 i (hz i hi) hv _ k3)
      · rw [(hF i (hz i hi) hv).1] at k1
        obtain ⟨j, hj, e'', k3, k4⟩ := hc c ⟨i, hi, e', k1, k2⟩
        by_cases hw : V j
        · rw [hV j (hz' j hj) hw] at k3
          cases k3
          rw [(letter _ _).1 k4] at k2
          exact absurd k2 ((hF i (hz i hi) hv).2 j (hz' j hj) hw _ k1)
        · exact ⟨j, hj, e'', by rw [(hF j (hz' j hj) hw).1]; exact k3, k4⟩
    intro c
    rw [c3, d3]
    exact ⟨half x y (fun i hi => List.mem_append_left _ hi) (fun i hi => List.mem_append_right _ hi) (fun c hc => (b3 c).1 ((e1 c).1 ((a3 c).2 hc))) c,
      half y x (fun i hi => List.mem_append_right _ hi) (fun i hi => List.mem_append_left _ hi) (fun c hc => (a3 c).1 ((e1 c).2 ((b3 c).2 hc))) c⟩
  · -- the words
    let σ : Str → Language Str := fun c =>
      if hc : ∃ i ∈ x.parts ++ y.parts, V i ∧ g i = c then textLang cl (t hc.choose) else {[c]}
    have key : ∀ i ∈ x.parts ++ y.parts, textLang cl (t i) = subst σ (textLang cl (l i)) := by
      intro i hi
      by_cases hv : V i
      · have hs : σ (g i) = textLang cl (t i) := by
          have hc : ∃ j ∈ x.parts ++ y.parts, V j ∧ g j = g i := ⟨i, hi, hv, rfl⟩
          have : σ (g i) = textLang cl (t hc.choose) := dif_pos hc
          rw [this, hg _ hc.choose_spec.1 i hi hc.choose_spec.2.1 hv hc.choose_spec.2.2]
        have hL : textLang cl (l i) = {[g i]} := by
          ext w
          rw [textLang_eq (hV i hi hv), C34_to_nfa_accepts]
          exact letter_matches
        ext w
        rw [mem_subst, hL]
        constructor
        · intro hw
          exact ⟨[g i], rfl, by simpa [hs] using hw⟩
        · rintro ⟨_, rfl, hw⟩
          simpa [hs] using hw
      · rw [(hF i hi hv).1]
        symm
        apply subst_fixed
        intro v hv' c hc
        obtain ⟨_, _, e, he⟩ := hl i hi
        have hin : c ∈ (toNfa e).alphabet := by
          have := (textLang_eq he v).1 hv'
          rw [C02_nfa_accepts_iff _ (toNfa_wf e)] at this
          exact Nfa.over_of_lang this c hc
        have hno : ¬ ∃ j ∈ x.parts ++ y.parts, V j ∧ g j = c := by
          rintro ⟨j, hj, hw, rfl⟩
          exact (hF i hi hv).2 j hj hw e he hin
        exact dif_neg hno
    intro w
    rw [c2, d2, lang_subst x (ρ := fun i => textLang cl (l i)) (fun i hi => key i (List.mem_append_left _ hi)),
      lang_subst y (ρ := fun i => textLang cl (l i)) (fun i hi => key i (List.mem_append_right _ hi))]
    have : x.lang (fun i => textLang cl (l i)) = y.lang (fun i => textLang cl (l i)) := by
      ext v
      rw [← a2, ← b2]
      exact e2 v
    rw [this]

open Classical in
/-- **C126** The laws that hold for all languages are exactly those that hold for letters: two expressions that consist of different letters accept the
same words if and only if the two ways in which they are put together mean the same for all languages put in place of the letters. -/
theorem C126_laws (cl : Str → Nat) (h : Segmentation cl) (x y : Shape Nat) (g l : Nat → Str)
    (hl : ∀ i ∈ x.parts ++ y.parts, Part cl (l i) ∧ regex cl (l i) = some (.chr (.grapheme (g i))))
    (hg : ∀ i ∈ x.parts ++ y.parts, ∀ j ∈ x.parts ++ y.parts, g i = g j → i = j) :
    ∃ a b, regex cl (x.map l).write = some a ∧ regex cl (y.map l).write = some b ∧
      ((∀ w, (toNfa a).accepts w = (toNfa b).accepts w) ↔ ∀ ρ : Nat → Language Str, x.lang ρ = y.lang ρ) := by
  have comp : ∀ z : Shape Nat, (∀ i ∈ z.parts, i ∈ x.parts ++ y.parts) → ∃ e, regex cl (z.map l).write = some e ∧
      ∀ w, (toNfa e).accepts w = true ↔ w ∈ z.lang (fun i => textLang cl (l i)) := by
    intro z hz
    obtain ⟨e, h1, h2, _⟩ := C115_compose cl h (z.map l) (by
      intro u hu
      rw [parts_map, List.mem_map] at hu
      obtain ⟨i, hi, rfl⟩ := hu
      exact (hl i (hz i hi)).1)
    exact ⟨e, h1, fun w => by rw [h2, lang_map]⟩
  obtain ⟨a, a1, a2⟩ := comp x (fun i hi => List.mem_append_left _ hi)
  obtain ⟨b, b1, b2⟩ := comp y (fun i hi => List.mem_append_right _ hi)
  refine ⟨a, b, a1, b1, ?_⟩
  constructor
  · intro hw ρ
    let σ : Str → Language Str := fun c => if hc : ∃ i ∈ x.parts ++ y.parts, g i = c then ρ hc.choose else 0
    have key : ∀ i ∈ x.parts ++ y.parts, ρ i = subst σ (textLang cl (l i)) := by
      intro i hi
      have hs : σ (g i) = ρ i := by
        have hc : ∃ j ∈ x.parts ++ y.parts, g j = g i := ⟨i, hi, rfl⟩
        have : σ (g i) = ρ hc.choose := dif_pos hc
        rw [this, hg _ hc.choose_spec.1 i hi hc.choose_spec.2]
      have hL : textLang cl (l i) = {[g i]} := by
        ext w
        rw [textLang_eq (hl i hi).2, C34_to_nfa_accepts]
        exact letter_matches
      ext w
      rw [mem_subst, hL]
      constructor
      · intro hw
        exact ⟨[g i], rfl, by simpa [hs] using hw⟩
      · rintro ⟨_, rfl, hw⟩
        simpa [hs] using hw
    rw [lang_subst x (ρ := fun i => textLang cl (l i)) (fun i hi => key i (List.mem_append_left _ hi)),
      lang_subst y (ρ := fun i => textLang cl (l i)) (fun i hi => key i (List.mem_append_right _ hi))]
    have : x.lang (fun i => textLang cl (l i)) = y.lang (fun i => textLang cl (l i)) := by
      ext v
      rw [← a2, ← b2, hw v]
    rw [this]
  · intro hρ w
    rw [Bool.eq_iff_iff, a2, b2, hρ]

/-! ## Instances -/

private theorem part_ends (t : Str) : Ends cl1 ')' t := by
  intro s _ hne r
  cases s with
  | nil => exact absurd rfl hne
  | cons c s => rfl

private theorem part_trimmed (t : Str) (h : ∀ c ∈ t, ¬ WhiteSpace c) : Trimmed t t :=
  ⟨[], [], by simp, by simp, by simp, fun c hc => h c (List.mem_of_mem_head? hc), fun c hc => h c (List.mem_of_mem_getLast? hc)⟩

private theorem part (t : Str) (h : ∀ c ∈ t, ¬ WhiteSpace c) (hr : (regex cl1 t).isSome = true) : Part cl1 t :=
  ⟨part_trimmed t h, part_ends t, Option.isSome_iff_exists.1 hr⟩

/-- `(x|ε)*` and `x*`, checked with the letter x, and with `ab|c` in place of x. -/
example : ∃ a b, regex cl1 c!"(((ab|c)|(ε))*)" = some a ∧ regex cl1 c!"((ab|c)*)" = some b ∧ (toNfa a).equivalentTo (toNfa b) = some true := by
  have h1 : (regex cl1 c!"(((x)|(ε))*)").bind (fun a => (regex cl1 c!"((x)*)").bind (fun b => (toNfa a).equivalentTo (toNfa b))) = some true := by
    decide +kernel
  rw [Option.bind_eq_some_iff] at h1
  obtain ⟨a, ha, h1⟩ := h1
  rw [Option.bind_eq_some_iff] at h1
  obtain ⟨b, hb, h1⟩ := h1
  have parts : ∀ i ∈ [0, 1] ++ [0], i = 0 ∨ i = 1 := by decide
  exact C126_equations cl1 cl1_seg (.star (.alt (.text 0) (.text 1))) (.star (.text 0)) (fun i => i = 0) (fun _ => c!"x")
    (fun i => if i = 0 then c!"x" else c!"ε") (fun i => if i = 0 then c!"ab|c" else c!"ε")
    (fun i hi => by rcases parts i hi with rfl | rfl <;> exact part _ (by decide) (by decide +kernel))
    (fun i hi => by rcases parts i hi with rfl | rfl <;> exact part _ (by decide) (by decide +kernel))
    (fun i _ hv => by cases hv; rfl)
    (fun i hi hv => by
      rcases parts i hi with rfl | rfl
      · exact absurd rfl hv
      · refine ⟨rfl, fun j _ _ e he => ?_⟩
        have : e = .chr .epsilon := by
          have h2 : regex cl1 c!"ε" = some (.chr .epsilon) := rfl
          exact Option.some.inj (he.symm.trans h2)
        subst this
        decide +kernel)
    (fun i _ j _ hi hj _ => hi.trans hj.symm) a b ha hb h1

/-- **C126 does not hold without the conditions** The letters have to be different, and must not appear in the parts that stay: `x` and `x` are
equivalent, but if only one of them is replaced, they are not. -/
theorem C126_letters_false : ¬ ∀ (x y : Shape Nat) (l t : Nat → Str), (∀ i, Part cl1 (l i) ∧ Part cl1 (t i)) → ∀ a b a' b',
    regex cl1 (x.map l).write = some a → regex cl1 (y.map l).write = some b → (toNfa a).equivalentTo (toNfa b) = some true →
    regex cl1 (x.map t).write = some a' → regex cl1 (y.map t).write = some b' → (toNfa a').equivalentTo (toNfa b') = some true := by
  intro h
  have h1 := h (.text 0) (.text 1) (fun _ => c!"x") (fun i => if i = 0 then c!"x" else c!"y")
    (fun i => ⟨part _ (by decide) (by decide +kernel), by
      by_cases hi : i = 0
      · simp only [hi, if_true]; exact part _ (by decide) (by decide +kernel)
      · simp only [hi, if_false]; exact part _ (by decide) (by decide +kernel)⟩)
    (.chr (.grapheme c!"x")) (.chr (.grapheme c!"x")) (.chr (.grapheme c!"x")) (.chr (.grapheme c!"y"))
    rfl rfl (by decide +kernel) rfl rfl
  exact absurd h1 (by decide +kernel)

/-- The letters x and y, for laws with two variables. -/
example : ∃ a b, regex cl1 c!"(((x)|(y))*)" = some a ∧ regex cl1 c!"((((x)*)((y)*))*)" = some b ∧
    ((∀ w, (toNfa a).accepts w = (toNfa b).accepts w) ↔ ∀ ρ : Nat → Language Str,
      (Shape.star (.alt (.text 0) (.text 1))).lang ρ = (Shape.star (.seq (.star (.text 0)) (.star (.text 1)))).lang ρ) := by
  have parts : ∀ i ∈ [0, 1] ++ [0, 1], i = 0 ∨ i = 1 := by decide
  exact C126_laws cl1 cl1_seg (.star (.alt (.text 0) (.text 1))) (.star (.seq (.star (.text 0)) (.star (.text 1))))
    (fun i => if i = 0 then c!"x" else c!"y") (fun i => if i = 0 then c!"x" else c!"y")
    (fun i hi => by rcases parts i hi with rfl | rfl <;> exact ⟨part _ (by decide) (by decide +kernel), rfl⟩)
    (fun i hi j hj => by rcases parts i hi with rfl | rfl <;> rcases parts j hj with rfl | rfl <;> decide)

end Dandy
