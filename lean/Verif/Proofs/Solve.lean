import Verif.Spec.Solve
/-! # Equations for expressions: languages (for C130) -/

namespace Dandy
namespace Shape

theorem noEmpty_spec {α : Type} {E : α → Prop} {ρ : α → Language Str} (hE : ∀ a, E a → [] ∉ ρ a) :
    ∀ x : Shape α, x.NoEmpty E → [] ∉ x.lang ρ
  | text a, h => hE a h
  | alt x y, h => by
    unfold lang
    rw [Language.mem_add, not_or]
    exact ⟨noEmpty_spec hE x h.1, noEmpty_spec hE y h.2⟩
  | seq x y, h => by
    unfold lang
    rw [Language.mem_mul]
    rintro ⟨u, hu, v, hv, huv⟩
    obtain ⟨rfl, rfl⟩ := List.append_eq_nil_iff.1 huv
    exact h.elim (fun h => noEmpty_spec hE x h hu) (fun h => noEmpty_spec hE y h hv)
  | star x, h => h.elim
  | plus x, h => by
    unfold lang
    rw [Language.mem_mul]
    rintro ⟨u, hu, v, hv, huv⟩
    obtain ⟨rfl, rfl⟩ := List.append_eq_nil_iff.1 huv
    exact noEmpty_spec hE x h hu

/-- Words of up to a length of the one language are in the other. -/
def UpTo (k : Nat) (L M : Language Str) : Prop := ∀ w, w.length ≤ k → w ∈ L → w ∈ M

/-- Words of less than a length. -/
def Below (k : Nat) (L M : Language Str) : Prop := ∀ w, w.length < k → w ∈ L → w ∈ M

private theorem UpTo.star {k : Nat} {L M : Language Str} (h : UpTo k L M) : UpTo k (KStar.kstar L) (KStar.kstar M) := by
  intro w hw hL
  rw [Language.mem_kstar] at hL ⊢
  obtain ⟨ws, rfl, hws⟩ := hL
  refine ⟨ws, rfl, fun y hy => h y ?_ (hws y hy)⟩
  exact (List.sublist_flatten_of_mem hy).length_le.trans hw

private theorem UpTo.mul {k : Nat} {L M L' M' : Language Str} (h : UpTo k L M) (h' : UpTo k L' M') : UpTo k (L * L') (M * M') := by
  intro w hw hL
  rw [Language.mem_mul] at hL ⊢
  obtain ⟨u, hu, v, hv, rfl⟩ := hL
  rw [List.length_append] at hw
  exact ⟨u, h u (by omega) hu, v, h' v (by omega) hv, rfl⟩

theorem lang_upTo {α : Type} {ρ σ : α → Language Str} {k : Nat} : ∀ x : Shape α, (∀ a ∈ x.parts, UpTo k (ρ a) (σ a)) → UpTo k (x.lang ρ) (x.lang σ)
  | text a, h => h a (by simp [parts])
  | alt x y, h => by
    intro w hw hL
    unfold lang at hL ⊢
    rw [Language.mem_add] at hL ⊢
    exact hL.imp (lang_upTo x (fun a ha => h a (List.mem_append_left _ ha)) w hw) (lang_upTo y (fun a ha => h a (List.mem_append_right _ ha)) w hw)
  | seq x y, h =>
    (lang_upTo x fun a ha => h a (List.mem_append_left _ ha)).mul (lang_upTo y fun a ha => h a (List.mem_append_right _ ha))
  | star x, h => (lang_upTo x h).star
  | plus x, h => (lang_upTo x h).mul (lang_upTo x h).star

theorem lang_below {α : Type} {ρ σ : α → Language Str} {k : Nat} (x : Shape α) (h : ∀ a ∈ x.parts, Below k (ρ a) (σ a)) :
    Below k (x.lang ρ) (x.lang σ) := by
  cases k with
  | zero => exact fun w hw => absurd hw (by omega)
  | succ k => exact fun w hw => lang_upTo (k := k) x (fun a ha v hv => h a ha v (by omega)) w (by omega)

/-- One more element can be seen through guarded parts. -/
theorem guarded_upTo {α : Type} {U E : α → Prop} {ρ σ : α → Language Str} (hE : ∀ a, E a → [] ∉ ρ a) {k : Nat} :
    ∀ x : Shape α, (∀ a ∈ x.parts, ¬ U a → ∀ w ∈ ρ a, w ∈ σ a) → (∀ a ∈ x.parts, Below k (ρ a) (σ a)) → x.Guarded U E →
      UpTo k (x.lang ρ) (x.lang σ)
  | text a, h, _, g => fun w _ hL => h a (by simp [parts]) g w hL
  | alt x y, h, hb, g => by
    intro w hw hL
    unfold lang at hL ⊢
    rw [Language.mem_add] at hL ⊢
    exact hL.imp
      (guarded_upTo hE x (fun a ha => h a (List.mem_append_left _ ha)) (fun a ha => hb a (List.mem_append_left _ ha)) g.1 w hw)
      (guarded_upTo hE y (fun a ha => h a (List.mem_append_right _ ha)) (fun a ha => hb a (List.mem_append_right _ ha)) g.2 w hw)
  | seq x y, h, hb, g => by
    have hx := guarded_upTo hE (k := k) x (fun a ha => h a (List.mem_append_left _ ha)) (fun a ha => hb a (List.mem_append_left _ ha))
    have hy := guarded_upTo hE (k := k) y (fun a ha => h a (List.mem_append_right _ ha)) (fun a ha => hb a (List.mem_append_right _ ha))
    have bx := lang_below x (fun a ha => hb a (List.mem_append_left _ ha))
    have bY := lang_below y (fun a ha => hb a (List.mem_append_right _ ha))
    unfold lang
    rcases g with ⟨g1, g2 | g2⟩ | ⟨g1, g2⟩
    · exact (hx g1).mul (hy g2)
    · intro w hw hL
      rw [Language.mem_mul] at hL ⊢
      obtain ⟨u, hu, v, hv, rfl⟩ := hL
      rw [List.length_append] at hw
      have : u.length ≠ 0 := fun h0 => noEmpty_spec hE x g2 (by rwa [List.length_eq_zero_iff.1 h0] at hu)
      exact ⟨u, hx g1 u (by omega) hu, v, bY v (by omega) hv, rfl⟩
    · intro w hw hL
      rw [Language.mem_mul] at hL ⊢
      obtain ⟨u, hu, v, hv, rfl⟩ := hL
      rw [List.length_append] at hw
      have : v.length ≠ 0 := fun h0 => noEmpty_spec hE y g2 (by rwa [List.length_eq_zero_iff.1 h0] at hv)
      exact ⟨u, bx u (by omega) hu, v, hy g1 v (by omega) hv, rfl⟩
  | star x, h, hb, g => (guarded_upTo hE x h hb g).star
  | plus x, h, hb, g => (guarded_upTo hE x h hb g).mul (guarded_upTo hE x h hb g).star

/-- What is contained in its right hand sides is contained in everything that contains its own. -/
theorem guarded_le {α : Type} {U E : α → Prop} {ρ σ : α → Language Str} (S : α → Shape α) (hE : ∀ a, E a → [] ∉ ρ a)
    (hk : ∀ a, ¬ U a → ∀ w ∈ ρ a, w ∈ σ a) (hS : ∀ a, U a → (S a).Guarded U E) (hρ : ∀ a, U a → ∀ w ∈ ρ a, w ∈ (S a).lang ρ)
    (hσ : ∀ a, U a → ∀ w ∈ (S a).lang σ, w ∈ σ a) (k : Nat) : ∀ a, Below k (ρ a) (σ a) := by
  induction k with
  | zero => exact fun a w hw => absurd hw (by omega)
  | succ k ih =>
    intro a w hw hL
    by_cases ha : U a
    · exact hσ a ha w (guarded_upTo hE (S a) (fun b _ => hk b) (fun b _ => ih b) (hS a ha) w (by omega) (hρ a ha w hL))
    · exact hk a ha w hL

end Shape
end Dandy
