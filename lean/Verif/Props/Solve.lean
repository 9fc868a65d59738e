import Mathlib.Data.Fin.VecNotation
import Mathlib.Tactic.FinCases
import Verif.Props.Equations
import Verif.Proofs.Solve
/-! # C130: equations for unknown expressions -/

namespace Dandy
open Samples RegexParser RegexTree

private theorem mem_textLang {cl : Str → Nat} {t : Str} {e : RegexTree} (h : regex cl t = some e) (w : Word) :
    w ∈ textLang cl t ↔ (toNfa e).accepts w = true := by
  change (∃ e', regex cl t = some e' ∧ (toNfa e').accepts w = true) ↔ _
  rw [h]
  simp

private theorem map_parts {α β : Type} (f : α → β) (z : Shape α) : (z.map f).parts = z.parts.map f := by
  induction z with
  | text a => rfl
  | alt x y hx hy => simp [Shape.map, Shape.parts, hx, hy]
  | seq x y hx hy => simp [Shape.map, Shape.parts, hx, hy]
  | star x hx => exact hx
  | plus x hx => exact hx

private theorem map_lang {α β : Type} (f : α → β) (ρ : β → Language Str) (z : Shape α) : (z.map f).lang ρ = z.lang (fun a => ρ (f a)) := by
  induction z with
  | text a => rfl
  | alt x y hx hy => simp [Shape.map, Shape.lang, hx, hy]
  | seq x y hx hy => simp [Shape.map, Shape.lang, hx, hy]
  | star x hx => simp [Shape.map, Shape.lang, hx]
  | plus x hx => simp [Shape.map, Shape.lang, hx]

private theorem composed {ι : Type} {cl : Str → Nat} (h : Segmentation cl) {t : ι → Str} (z : Shape ι) (ht : ∀ i ∈ z.parts, Part cl (t i)) :
    ∃ e, regex cl (z.map t).write = some e ∧ ∀ w, (toNfa e).accepts w = true ↔ w ∈ z.lang (fun i => textLang cl (t i)) := by
  obtain ⟨e, h1, h2, _⟩ := C115_compose cl h (z.map t) (by
    intro u hu
    rw [map_parts, List.mem_map] at hu
    obtain ⟨i, hi, rfl⟩ := hu
    exact ht i hi)
  exact ⟨e, h1, fun w => by rw [h2, map_lang]⟩

/-- The NFA of the first text accepts no word that the one of the second does not. -/
def TextLe (cl : Str → Nat) (t u : Str) : Prop :=
  ∃ a b, regex cl t = some a ∧ regex cl u = some b ∧ ∀ w, (toNfa a).accepts w = true → (toNfa b).accepts w = true

/-- **C130** Let there be an equation for each of some unknown expressions, with a right hand side that is put together from known and unknown ones,
the unknown ones only before or after something without the empty word. If some texts are contained in their right hand sides, and others contain
theirs, then the first are contained in the others. -/
theorem C130_inclusion {ι : Type} (cl : Str → Nat) (h : Segmentation cl) (U E : ι → Prop) (S : ι → Shape ι) (t u : ι → Str)
    (ht : ∀ i, Part cl (t i)) (hu : ∀ i, Part cl (u i)) (hk : ∀ i, ¬ U i → TextLe cl (t i) (u i))
    (hE : ∀ i, E i → ∀ e, regex cl (t i) = some e → (toNfa e).accepts [] = false) (hS : ∀ i, U i → (S i).Guarded U E)
    (h1 : ∀ i, U i → TextLe cl (t i) ((S i).map t).write) (h2 : ∀ i, U i → TextLe cl ((S i).map u).write (u i)) (i : ι) :
    TextLe cl (t i) (u i) := by
  obtain ⟨_, _, a, ha⟩ := ht i
  obtain ⟨_, _, b, hb⟩ := hu i
  refine ⟨a, b, ha, hb, fun w hw => ?_⟩
  rw [← mem_textLang hb]
  refine Shape.guarded_le (ρ := fun i => textLang cl (t i)) (σ := fun i => textLang cl (u i)) S ?_ ?_ hS ?_ ?_ (w.length + 1) i w (by omega)
    ((mem_textLang ha w).2 hw)
  · rintro j hj ⟨e, he, hm⟩
    rw [hE j hj e he] at hm
    cases hm
  · intro j hj v hv
    obtain ⟨a', b', ha', hb', hab⟩ := hk j hj
    exact (mem_textLang hb' v).2 (hab v ((mem_textLang ha' v).1 hv))
  · intro j hj v hv
    obtain ⟨a', b', ha', hb', hab⟩ := h1 j hj
    obtain ⟨e, he, hl⟩ := composed h (t := t) (S j) (fun i _ => ht i)
    rw [he] at hb'
    cases hb'
    exact (hl v).1 (hab v ((mem_textLang ha' v).1 hv))
  · intro j hj v hv
    obtain ⟨a', b', ha', hb', hab⟩ := h2 j hj
    obtain ⟨e, he, hl⟩ := composed h (t := u) (S j) (fun i _ => hu i)
    rw [he] at ha'
    cases ha'
    exact (mem_textLang hb' v).2 (hab v ((hl v).2 hv))

private theorem equivalent_accepts {a b : RegexTree} (h : (toNfa a).equivalentTo (toNfa b) = some true) :
    SameElems (toNfa a).alphabet (toNfa b).alphabet ∧ ∀ w, (toNfa a).accepts w = (toNfa b).accepts w := by
  obtain ⟨r, h1, h2⟩ := C20_nfa_equivalent_to (toNfa a) (toNfa b) (toNfa_wf a) (toNfa_wf b)
  rw [h1] at h
  obtain ⟨h3, h4⟩ := h2.1 (Option.some.inj h)
  refine ⟨h3, fun w => ?_⟩
  rw [Bool.eq_iff_iff, C02_nfa_accepts_iff _ (toNfa_wf a), C02_nfa_accepts_iff _ (toNfa_wf b)]
  exact h4 w

/-- The comparison of two texts says that they are equivalent. -/
def TextEq (cl : Str → Nat) (t u : Str) : Prop :=
  ∃ a b, regex cl t = some a ∧ regex cl u = some b ∧ (toNfa a).equivalentTo (toNfa b) = some true

private theorem TextEq.le {cl : Str → Nat} {t u : Str} (h : TextEq cl t u) : TextLe cl t u := by
  obtain ⟨a, b, ha, hb, hab⟩ := h
  exact ⟨a, b, ha, hb, fun w hw => ((equivalent_accepts hab).2 w).symm.trans hw⟩

private theorem TextEq.ge {cl : Str → Nat} {t u : Str} (h : TextEq cl t u) : TextLe cl u t := by
  obtain ⟨a, b, ha, hb, hab⟩ := h
  exact ⟨b, a, hb, ha, fun w hw => ((equivalent_accepts hab).2 w).trans hw⟩

/-- **C130** So such equations have at most one solution: two families of texts for which the comparisons with the right hand sides are all true
accept the same words. -/
theorem C130_unique {ι : Type} (cl : Str → Nat) (h : Segmentation cl) (U E : ι → Prop) (S : ι → Shape ι) (t u : ι → Str)
    (ht : ∀ i, Part cl (t i)) (hu : ∀ i, Part cl (u i)) (hk : ∀ i, ¬ U i → t i = u i)
    (hE : ∀ i, E i → ¬ U i ∧ ∀ e, regex cl (t i) = some e → (toNfa e).accepts [] = false) (hS : ∀ i, U i → (S i).Guarded U E)
    (h1 : ∀ i, U i → TextEq cl (t i) ((S i).map t).write) (h2 : ∀ i, U i → TextEq cl (u i) ((S i).map u).write) (i : ι) :
    ∃ a b, regex cl (t i) = some a ∧ regex cl (u i) = some b ∧ ∀ w, (toNfa a).accepts w = (toNfa b).accepts w := by
  have le_refl : ∀ {x : Str}, Part cl x → TextLe cl x x := fun hx => by
    obtain ⟨_, _, a, ha⟩ := hx
    exact ⟨a, a, ha, ha, fun _ hw => hw⟩
  obtain ⟨a, b, ha, hb, hab⟩ := C130_inclusion cl h U E S t u ht hu (fun i hi => hk i hi ▸ le_refl (ht i)) (fun i hi => (hE i hi).2) hS
    (fun i hi => (h1 i hi).le) (fun i hi => (h2 i hi).ge) i
  obtain ⟨b', a', hb', ha', hba⟩ := C130_inclusion cl h U E S u t hu ht (fun i hi => hk i hi ▸ le_refl (ht i))
    (fun i hi => by rw [← hk i (hE i hi).1]; exact (hE i hi).2) hS (fun i hi => (h2 i hi).le) (fun i hi => (h1 i hi).ge) i
  rw [ha] at ha'
  rw [hb] at hb'
  cases ha'
  cases hb'
  exact ⟨a, b, ha, hb, fun w => Bool.eq_iff_iff.2 ⟨hab w, hba w⟩⟩

private theorem part1 (t : Str) (h : ∀ c ∈ t, ¬ WhiteSpace c) (hr : (regex cl1 t).isSome = true) : Part cl1 t := by
  refine ⟨⟨[], [], by simp, by simp, by simp, fun c hc => h c (List.mem_of_mem_head? hc), fun c hc => h c (List.mem_of_mem_getLast? hc)⟩, ?_,
    Option.isSome_iff_exists.1 hr⟩
  intro s _ hne r
  cases s with
  | nil => exact absurd rfl hne
  | cons c s => rfl

private theorem textEq1 {t u : Str} (h : (regex cl1 t).bind (fun a => (regex cl1 u).bind (fun b => (toNfa a).equivalentTo (toNfa b))) = some true) :
    TextEq cl1 t u := by
  obtain ⟨a, ha, h⟩ := Option.bind_eq_some_iff.1 h
  obtain ⟨b, hb, h⟩ := Option.bind_eq_some_iff.1 h
  exact ⟨a, b, ha, hb, h⟩

/-- The equations `X = aY|b` and `Y = bX|a`: the texts on the left and on the right satisfy both. -/
example : ∃ (S : Fin 4 → Shape (Fin 4)) (t u : Fin 4 → Str), t 2 = c!"(ab)*(aa|b)" ∧ u 2 = c!"aa|b|ab(ab)*(aa|b)" ∧ (∀ i, Part cl1 (t i)) ∧
    (∀ i, Part cl1 (u i)) ∧ (∀ i, 2 ≤ i → (S i).Guarded (2 ≤ ·) (· < 2)) ∧ (∀ i, 2 ≤ i → TextEq cl1 (t i) ((S i).map t).write) ∧
    ∀ i, 2 ≤ i → TextEq cl1 (u i) ((S i).map u).write := by
  refine ⟨![.text 0, .text 1, .alt (.seq (.text 0) (.text 3)) (.text 1), .alt (.seq (.text 1) (.text 2)) (.text 0)],
    ![c!"a", c!"b", c!"(ab)*(aa|b)", c!"(ba)*(bb|a)"], ![c!"a", c!"b", c!"aa|b|ab(ab)*(aa|b)", c!"b(ab)*(aa|b)|a"], rfl, rfl, ?_, ?_, ?_, ?_, ?_⟩
  · intro i
    fin_cases i <;> exact part1 _ (by decide) (by decide +kernel)
  · intro i
    fin_cases i <;> exact part1 _ (by decide) (by decide +kernel)
  · intro i hi
    fin_cases i
    · exact absurd hi (by decide)
    · exact absurd hi (by decide)
    · exact ⟨.inl ⟨by change ¬ ((2 : Fin 4) ≤ 0); decide, .inr (by change (0 : Fin 4) < 2; decide)⟩, by change ¬ ((2 : Fin 4) ≤ 1); decide⟩
    · exact ⟨.inl ⟨by change ¬ ((2 : Fin 4) ≤ 1); decide, .inr (by change (1 : Fin 4) < 2; decide)⟩, by change ¬ ((2 : Fin 4) ≤ 0); decide⟩
  · intro i hi
    fin_cases i
    · exact absurd hi (by decide)
    · exact absurd hi (by decide)
    · exact textEq1 (by decide +kernel)
    · exact textEq1 (by decide +kernel)
  · intro i hi
    fin_cases i
    · exact absurd hi (by decide)
    · exact absurd hi (by decide)
    · exact textEq1 (by decide +kernel)
    · exact textEq1 (by decide +kernel)

/-- The right hand side `AX|B`, and the solution `A*B`; 0, 1, 2 stand for A, B, X. -/
private def rhs : Shape (Fin 3) := .alt (.seq (.text 0) (.text 2)) (.text 1)

private def sol : Shape (Fin 3) := .seq (.star (.text 0)) (.text 1)

private theorem sol_solves (A B : Language Str) : A * (KStar.kstar A * B) + B = KStar.kstar A * B := by
  conv_rhs => rw [← Language.one_add_self_mul_kstar_eq_kstar A, add_mul, one_mul, mul_assoc]
  rw [add_comm]

/-- **C130** Arden's rule: if A does not accept the empty word, the only solution of `X = AX|B` is `A*B`. -/
theorem C130_arden (cl : Str → Nat) (h : Segmentation cl) (A B X : Str) (hA : Part cl A) (hB : Part cl B) (hX : Part cl X)
    (ha : ∀ e, regex cl A = some e → (toNfa e).accepts [] = false) :
    ∃ x r m, regex cl X = some x ∧ regex cl (Shape.alt (.seq (.text A) (.text X)) (.text B)).write = some r ∧
      regex cl (Shape.seq (.star (.text A)) (.text B)).write = some m ∧
      ((∀ w, (toNfa x).accepts w = (toNfa r).accepts w) ↔ ∀ w, (toNfa x).accepts w = (toNfa m).accepts w) := by
  let t : Fin 3 → Str := ![A, B, X]
  have ht : ∀ i, Part cl (t i) := by
    intro i
    fin_cases i
    · exact hA
    · exact hB
    · exact hX
  obtain ⟨r, hr, hrl⟩ := composed h (t := t) rhs (fun i _ => ht i)
  obtain ⟨m, hm, hml⟩ := composed h (t := t) sol (fun i _ => ht i)
  obtain ⟨_, _, x, hx⟩ := hX
  refine ⟨x, r, m, hx, hr, hm, ?_⟩
  have hxl : ∀ w, (toNfa x).accepts w = true ↔ w ∈ textLang cl X := fun w => (mem_textLang hx w).symm
  have e1 : rhs.lang (fun i => textLang cl (t i)) = textLang cl A * textLang cl X + textLang cl B := rfl
  have e2 : sol.lang (fun i => textLang cl (t i)) = KStar.kstar (textLang cl A) * textLang cl B := rfl
  rw [e1] at hrl
  rw [e2] at hml
  have hA0 : [] ∉ textLang cl A := by
    rintro ⟨e, he, hw⟩
    rw [ha e he] at hw
    cases hw
  simp only [Bool.eq_iff_iff, hrl, hml, hxl]
  have key : ∀ L M : Language Str, L = textLang cl A * L + textLang cl B → M = textLang cl A * M + textLang cl B → ∀ w ∈ L, w ∈ M := by
    intro L M hL hM w hw
    refine Shape.guarded_le (U := fun i : Fin 3 => i = 2) (E := fun i => i = 0) (ρ := ![textLang cl A, textLang cl B, L])
      (σ := ![textLang cl A, textLang cl B, M]) (fun _ => rhs) ?_ ?_ ?_ ?_ ?_ (w.length + 1) 2 w (by omega) hw
    · rintro _ rfl; exact hA0
    · intro i hi
      fin_cases i
      · exact fun _ hw => hw
      · exact fun _ hw => hw
      · exact absurd rfl hi
    · intro i hi
      refine ⟨.inl ⟨?_, .inr rfl⟩, ?_⟩
      · change ¬ ((0 : Fin 3) = 2); decide
      · change ¬ ((1 : Fin 3) = 2); decide
    · rintro _ rfl v hv
      change v ∈ textLang cl A * L + textLang cl B
      rw [← hL]
      exact hv
    · rintro _ rfl v hv
      change v ∈ textLang cl A * M + textLang cl B at hv
      rw [← hM] at hv
      exact hv
  constructor
  · intro hw
    have hL : textLang cl X = textLang cl A * textLang cl X + textLang cl B := Set.ext hw
    intro w
    exact ⟨key _ _ hL (sol_solves _ _).symm w, key _ _ (sol_solves _ _).symm hL w⟩
  · intro hw
    have hL : textLang cl X = KStar.kstar (textLang cl A) * textLang cl B := Set.ext hw
    intro w
    rw [hL, sol_solves]

/-- `X = aX|b` and the text `b|aa*b`. -/
example : Part cl1 c!"a" ∧ Part cl1 c!"b" ∧ Part cl1 c!"b|aa*b" ∧ (regex cl1 c!"a").map (fun e => (toNfa e).accepts []) = some false ∧
    TextEq cl1 c!"b|aa*b" (Shape.alt (.seq (.text c!"a") (.text c!"b|aa*b")) (.text c!"b")).write ∧
    TextEq cl1 c!"b|aa*b" (Shape.seq (.star (.text c!"a")) (.text c!"b")).write :=
  ⟨part1 _ (by decide) (by decide +kernel), part1 _ (by decide) (by decide +kernel), part1 _ (by decide) (by decide +kernel), by decide +kernel,
    textEq1 (by decide +kernel), textEq1 (by decide +kernel)⟩

/-- **C130** In any case `A*B` is the least solution: whatever contains `AX|B` contains it. -/
theorem C130_least (cl : Str → Nat) (h : Segmentation cl) (A B X : Str) (hA : Part cl A) (hB : Part cl B) (hX : Part cl X)
    (hle : TextLe cl (Shape.alt (.seq (.text A) (.text X)) (.text B)).write X) :
    TextLe cl (Shape.seq (.star (.text A)) (.text B)).write X := by
  let t : Fin 3 → Str := ![A, B, X]
  have ht : ∀ i, Part cl (t i) := by
    intro i
    fin_cases i
    · exact hA
    · exact hB
    · exact hX
  obtain ⟨r, hr, hrl⟩ := composed h (t := t) rhs (fun i _ => ht i)
  obtain ⟨m, hm, hml⟩ := composed h (t := t) sol (fun i _ => ht i)
  obtain ⟨r', x, hr', hx, hrx⟩ := hle
  have : r' = r := Option.some.inj (hr'.symm.trans hr)
  subst this
  refine ⟨m, x, hm, hx, fun w hw0 => ?_⟩
  have hle' : ∀ v, v ∈ textLang cl A * textLang cl X + textLang cl B → v ∈ textLang cl X := fun v hv =>
    (mem_textLang hx v).2 (hrx v ((hrl v).2 hv))
  have hw : w ∈ KStar.kstar (textLang cl A) * textLang cl B := (hml w).1 hw0
  clear hw0
  rw [← mem_textLang hx]
  rw [Language.mem_mul] at hw
  obtain ⟨u, hu, v, hv, rfl⟩ := hw
  rw [Language.mem_kstar] at hu
  obtain ⟨us, rfl, hus⟩ := hu
  induction us with
  | nil => exact hle' v (Or.inr hv)
  | cons u us ih =>
    rw [List.flatten_cons, List.append_assoc]
    refine hle' _ (Or.inl ?_)
    exact Language.mem_mul.2 ⟨u, hus u List.mem_cons_self, _, ih (fun y hy => hus y (List.mem_cons_of_mem _ hy)), rfl⟩

/-- Here A accepts the empty word. -/
example : TextLe cl1 (Shape.alt (.seq (.text c!"a*") (.text c!"(a|b)*")) (.text c!"b")).write c!"(a|b)*" :=
  (textEq1 (by decide +kernel)).le

/-- **C130** With the empty word there are other solutions: `X = εX|b` is solved by `b|c`, which is not `ε*b`. -/
theorem C130_unguarded_false : ¬ ∀ A B X : Str, Part cl1 A → Part cl1 B → Part cl1 X →
    TextEq cl1 X (Shape.alt (.seq (.text A) (.text X)) (.text B)).write →
      TextLe cl1 X (Shape.seq (.star (.text A)) (.text B)).write := by
  intro h
  obtain ⟨a, b, ha, hb, hab⟩ := h c!"ε" c!"b" c!"b|c" (part1 _ (by decide) (by decide +kernel)) (part1 _ (by decide) (by decide +kernel))
    (part1 _ (by decide) (by decide +kernel)) (textEq1 (by decide +kernel))
  have h1 : (regex cl1 c!"b|c").map (fun e => (toNfa e).accepts [s 'c']) = some true := by decide +kernel
  have h2 : (regex cl1 (Shape.seq (.star (.text c!"ε")) (.text c!"b")).write).map (fun e => (toNfa e).accepts [s 'c']) = some false := by
    decide +kernel
  rw [ha] at h1
  rw [hb] at h2
  have h3 := hab _ (Option.some.inj h1)
  exact absurd (h3.symm.trans (Option.some.inj h2)) (by decide)

end Dandy
