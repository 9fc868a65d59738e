import Verif.Spec.Compose
import Verif.Proofs.RegexErrors
/-! # Lemmas about expressions put together as texts (for C115) -/

namespace Dandy
variable {cl : Str → Nat}

/-- A phrase of the grammar stays one if something is written behind the text that does not change its clusters. -/
theorem expr_extend (h : Segmentation cl) {t : Str} {c : Char} (he : Ends cl c t) (x : Str) {s r : Str} {L : Language Str} {gs : List Str}
    (hl : ExprL cl s r L gs) (hs : s <:+ t) : ExprL cl (s ++ c :: x) (r ++ c :: x) L gs := by
  have cut : ∀ s, s <:+ t → s ≠ [] → (s ++ c :: x).drop (cl (s ++ c :: x)) = s.drop (cl s) ++ c :: x ∧
      (s ++ c :: x).take (cl (s ++ c :: x)) = s.take (cl s) := by
    intro s h1 h2
    rw [he s h1 h2, List.drop_append_of_le_length (h.le s), List.take_append_of_le_length (h.le s)]
    exact ⟨rfl, rfl⟩
  refine (ExprL.rec
    (motive_1 := fun s r L gs _ => r <:+ s ∧ (s <:+ t → AtomL cl (s ++ c :: x) (r ++ c :: x) L gs))
    (motive_2 := fun s r L gs _ => r <:+ s ∧ (s <:+ t → ItemL cl (s ++ c :: x) (r ++ c :: x) L gs))
    (motive_3 := fun s r L gs _ => r <:+ s ∧ (s <:+ t → SeqL cl (s ++ c :: x) (r ++ c :: x) L gs))
    (motive_4 := fun s r L gs _ => r <:+ s ∧ (s <:+ t → ExprL cl (s ++ c :: x) (r ++ c :: x) L gs)) ?_ ?_ ?_ ?_ ?_ ?_ ?_ ?_ ?_ ?_ ?_ ?_ hl).2 hs
  · intro s r _ _ _ ih
    exact ⟨((List.suffix_cons _ _).trans ih.1).trans (List.suffix_cons _ _), fun hs => .par (ih.2 ((List.suffix_cons _ _).trans hs))⟩
  · intro r; exact ⟨List.suffix_cons _ _, fun _ => .epsilon⟩
  · intro r; exact ⟨List.suffix_cons _ _, fun _ => .empty⟩
  · intro s hne
    refine ⟨(List.drop_suffix _ _).trans (List.suffix_cons _ _), fun hs => ?_⟩
    have := cut s ((List.suffix_cons _ _).trans hs) hne
    have h2 := AtomL.escaped (cl := cl) (s := s ++ c :: x) (by simp)
    rw [this.1, this.2] at h2
    exact h2
  · intro d s hr
    refine ⟨List.drop_suffix _ _, fun hs => ?_⟩
    have := cut (d :: s) hs (by simp)
    have h2 := AtomL.plain (cl := cl) (s := s ++ c :: x) hr
    rw [List.cons_append] at this
    rw [this.1, this.2] at h2
    exact h2
  · intro s r _ _ _ ih; exact ⟨ih.1, fun hs => .atom (ih.2 hs)⟩
  · intro s r _ _ _ ih; exact ⟨(List.suffix_cons _ _).trans ih.1, fun hs => .star (ih.2 hs)⟩
  · intro s r _ _ _ ih; exact ⟨(List.suffix_cons _ _).trans ih.1, fun hs => .plus (ih.2 hs)⟩
  · intro s r _ _ _ ih; exact ⟨ih.1, fun hs => .one (ih.2 hs)⟩
  · intro s m r _ _ _ _ _ _ ih1 ih2
    exact ⟨ih2.1.trans ih1.1, fun hs => .cons (ih1.2 hs) (ih2.2 (ih1.1.trans hs))⟩
  · intro s r _ _ _ ih; exact ⟨ih.1, fun hs => .one (ih.2 hs)⟩
  · intro s m r _ _ _ _ _ _ ih1 ih2
    have : m <:+ s := (List.suffix_cons _ _).trans ih1.1
    exact ⟨ih2.1.trans this, fun hs => .alt (ih1.2 hs) (ih2.2 (this.trans hs))⟩

/-- Two expressions with a bar between them. -/
theorem expr_bar {s r : Str} {L : Language Str} {gs : List Str} (hl : ExprL cl s r L gs) {u v : Str} {M : Language Str} {hs : List Str}
    (hr : r = '|' :: u) (hu : ExprL cl u v M hs) : ExprL cl s v (L + M) (gs ++ hs) := by
  refine ExprL.rec (motive_1 := fun _ _ _ _ _ => True) (motive_2 := fun _ _ _ _ _ => True) (motive_3 := fun _ _ _ _ _ => True)
    (motive_4 := fun s r L gs _ => r = '|' :: u → ExprL cl s v (L + M) (gs ++ hs)) ?_ ?_ ?_ ?_ ?_ ?_ ?_ ?_ ?_ ?_ ?_ ?_ hl hr
  · intros; trivial
  · intros; trivial
  · intros; trivial
  · intros; trivial
  · intros; trivial
  · intros; trivial
  · intros; trivial
  · intros; trivial
  · intros; trivial
  · intros; trivial
  · intro s r _ _ h1 _ e
    subst e
    exact .alt h1 hu
  · intro s m r _ _ _ _ h1 _ _ ih e
    rw [add_assoc, List.append_assoc]
    exact .alt h1 (ih e)

/-- What is written for a shape is an atom, whatever comes after it. -/
theorem shape_atom (h : Segmentation cl) (ρ : Str → Language Str) : ∀ (x : Shape Str),
    (∀ t ∈ x.parts, Ends cl ')' t ∧ ∃ gs, ExprL cl t [] (ρ t) gs) → ∀ r, ∃ gs, AtomL cl (x.write ++ r) r (x.lang ρ) gs ∧
      ∀ g, g ∈ gs ↔ ∃ t ∈ x.parts, ∃ hs, ExprL cl t [] (ρ t) hs ∧ g ∈ hs
  | .text t, hp, r => by
    obtain ⟨he, gs, hl⟩ := hp t (by simp [Shape.parts])
    refine ⟨gs, ?_, ?_⟩
    · have := expr_extend h he r hl (List.suffix_refl _)
      simp only [Shape.write, Shape.lang, List.append_assoc, List.singleton_append]
      exact .par (by simpa using this)
    · intro g
      simp only [Shape.parts, List.mem_singleton, exists_eq_left]
      refine ⟨fun hg => ⟨gs, hl, hg⟩, ?_⟩
      rintro ⟨hs, h1, h2⟩
      obtain ⟨t1, e1, _, rfl⟩ := expression_complete h hl (Nat.lt_succ_self _)
      obtain ⟨t2, e2, _, rfl⟩ := expression_complete h h1 (Nat.lt_succ_self _)
      rw [e1] at e2
      cases e2
      exact h2
  | .alt x y, hp, r => by
    simp only [Shape.parts, List.mem_append] at hp
    obtain ⟨gs, h1, h1'⟩ := shape_atom h ρ x (fun t ht => hp t (.inl ht)) ('|' :: (y.write ++ ')' :: r))
    obtain ⟨hs, h2, h2'⟩ := shape_atom h ρ y (fun t ht => hp t (.inr ht)) (')' :: r)
    refine ⟨gs ++ hs, ?_, ?_⟩
    · simp only [Shape.write, Shape.lang, List.append_assoc, List.singleton_append]
      exact .par (.alt (.one (.atom h1)) (.one (.one (.atom h2))))
    · intro g
      simp only [Shape.parts, List.mem_append, h1', h2', or_and_right, exists_or]
  | .seq x y, hp, r => by
    simp only [Shape.parts, List.mem_append] at hp
    obtain ⟨gs, h1, h1'⟩ := shape_atom h ρ x (fun t ht => hp t (.inl ht)) (y.write ++ ')' :: r)
    obtain ⟨hs, h2, h2'⟩ := shape_atom h ρ y (fun t ht => hp t (.inr ht)) (')' :: r)
    refine ⟨gs ++ hs, ?_, ?_⟩
    · simp only [Shape.write, Shape.lang, List.append_assoc, List.singleton_append]
      exact .par (.one (.cons (.atom h1) (.one (.atom h2))))
    · intro g
      simp only [Shape.parts, List.mem_append, h1', h2', or_and_right, exists_or]
  | .star x, hp, r => by
    obtain ⟨gs, h1, h1'⟩ := shape_atom h ρ x hp ('*' :: ')' :: r)
    refine ⟨gs, ?_, h1'⟩
    simp only [Shape.write, Shape.lang, List.append_assoc, List.singleton_append, List.cons_append, List.nil_append]
    exact .par (.one (.one (.star h1)))
  | .plus x, hp, r => by
    obtain ⟨gs, h1, h1'⟩ := shape_atom h ρ x hp ('+' :: ')' :: r)
    refine ⟨gs ++ gs, ?_, fun g => by rw [List.mem_append, or_self]; exact h1' g⟩
    simp only [Shape.write, Shape.lang, List.append_assoc, List.singleton_append, List.cons_append, List.nil_append]
    exact .par (.one (.one (.plus h1)))

end Dandy
