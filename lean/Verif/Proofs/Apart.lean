import Verif.Proofs.DfaCore
import Mathlib.Data.Fintype.Card
import Mathlib.Data.Fintype.Sum
import Mathlib.Data.Fintype.EquivFin
import Mathlib.Data.Fintype.Quotient
import Mathlib.Data.Setoid.Basic
/-! # Words that tell states apart: as many elements as there are states, less two, are enough -/

namespace Dandy
namespace Apart

section
variable {σ α : Type} (L : σ → List α → Prop)

/-- No word with at most `k` elements tells the two states apart. -/
def upTo (k : Nat) : Setoid σ where
  r p q := ∀ w : List α, w.length ≤ k → (L p w ↔ L q w)
  iseqv := ⟨fun _ _ _ => Iff.rfl, fun h w hw => (h w hw).symm, fun h h' w hw => (h w hw).trans (h' w hw)⟩

theorem upTo_mono {j k : Nat} (h : j ≤ k) {p q : σ} (hpq : (upTo L k).r p q) : (upTo L j).r p q :=
  fun w hw => hpq w (le_trans hw h)

variable (A : α → Prop) (hnx : ∀ s a, A a → ∃ t, ∀ w, L s (a :: w) ↔ L t w) (hA : ∀ s w, L s w → ∀ a ∈ w, A a)
include hnx hA

theorem stable_succ {k : Nat} (h : ∀ p q, (upTo L k).r p q → (upTo L (k + 1)).r p q) (p q : σ) (hpq : (upTo L (k + 1)).r p q) :
    (upTo L (k + 2)).r p q := by
  intro w hw
  cases w with
  | nil => exact hpq [] (by simp)
  | cons a w =>
    by_cases ha : A a
    · obtain ⟨p', hp⟩ := hnx p a ha
      obtain ⟨q', hq⟩ := hnx q a ha
      rw [hp, hq]
      refine h p' q' (fun v hv => ?_) w (by simp only [List.length_cons] at hw; omega)
      rw [← hp, ← hq]
      exact hpq (a :: v) (by simp only [List.length_cons]; omega)
    · exact ⟨fun h => absurd (hA p _ h a (by simp)) ha, fun h => absurd (hA q _ h a (by simp)) ha⟩

theorem stable {k : Nat} (h : ∀ p q, (upTo L k).r p q → (upTo L (k + 1)).r p q) :
    ∀ (j : Nat) (p q : σ), (upTo L k).r p q → (upTo L (k + j)).r p q := by
  have hs : ∀ j, ∀ p q, (upTo L (k + j)).r p q → (upTo L (k + j + 1)).r p q := by
    intro j
    induction j with
    | zero => exact h
    | succ j ih => exact fun p q hpq => stable_succ L A hnx hA ih p q hpq
  intro j
  induction j with
  | zero => exact fun p q hpq => hpq
  | succ j ih => exact fun p q hpq => hs j p q (ih p q hpq)

open Classical in
/-- Moore's bound. -/
theorem short [Fintype σ] (p q : σ) (w : List α) (hw : ¬ (L p w ↔ L q w)) :
    ∃ v : List α, v.length + 2 ≤ Fintype.card σ ∧ ¬ (L p v ↔ L q v) := by
  by_contra hno
  have hpq : p ≠ q := by rintro rfl; exact hw Iff.rfl
  have hcard : 2 ≤ Fintype.card σ := by
    have := Fintype.one_lt_card_iff.2 ⟨p, q, hpq⟩
    omega
  obtain ⟨K, hK⟩ : ∃ K, Fintype.card σ = K + 2 := ⟨Fintype.card σ - 2, by omega⟩
  have hE : (upTo L K).r p q := by
    intro v hv
    by_contra hc
    exact hno ⟨v, by omega, hc⟩
  have hne : ∀ k ≤ K, ¬ ∀ p q, (upTo L k).r p q → (upTo L (k + 1)).r p q := by
    intro k hk h
    have := stable L A hnx hA h w.length p q (upTo_mono L hk hE)
    exact hw (this w (by omega))
  have hstep : ∀ k ≤ K, Fintype.card (Quotient (upTo L k)) < Fintype.card (Quotient (upTo L (k + 1))) := by
    intro k hk
    let f : Quotient (upTo L (k + 1)) → Quotient (upTo L k) :=
      Quotient.map' id (fun a b h => upTo_mono L (Nat.le_succ k) h)
    refine Fintype.card_lt_of_surjective_not_injective f ?_ ?_
    · intro x
      induction x using Quotient.inductionOn with
      | h a => exact ⟨Quotient.mk _ a, rfl⟩
    · intro hinj
      refine hne k hk (fun a b hab => ?_)
      have : f (Quotient.mk _ a) = f (Quotient.mk _ b) := Quotient.sound hab
      exact Quotient.exact (hinj this)
  have h0 : 2 ≤ Fintype.card (Quotient (upTo L 0)) := by
    by_contra hc
    have hsub : Subsingleton (Quotient (upTo L 0)) := Fintype.card_le_one_iff_subsingleton.1 (by omega)
    refine hne 0 (by omega) (fun a b _ v hv => ?_)
    have hall : ∀ x y : σ, L x [] ↔ L y [] := fun x y =>
      (Quotient.exact (hsub.elim (Quotient.mk (upTo L 0) x) (Quotient.mk (upTo L 0) y)) : (upTo L 0).r x y) [] (by simp)
    cases v with
    | nil => exact hall a b
    | cons e v =>
      have : v = [] := by
        simp only [List.length_cons] at hv
        exact List.length_eq_zero_iff.1 (by omega)
      subst this
      by_cases he : A e
      · obtain ⟨a', ha⟩ := hnx a e he
        obtain ⟨b', hb⟩ := hnx b e he
        rw [ha, hb]; exact hall a' b'
      · exact ⟨fun h => absurd (hA a _ h e (by simp)) he, fun h => absurd (hA b _ h e (by simp)) he⟩
  have hgrow : ∀ k ≤ K + 1, k + 2 ≤ Fintype.card (Quotient (upTo L k)) := by
    intro k
    induction k with
    | zero => intro _; exact h0
    | succ k ih =>
      intro hk
      have := ih (by omega)
      have := hstep k (by omega)
      omega
  have h1 := hgrow (K + 1) (le_refl _)
  have h2 := Fintype.card_quotient_le (upTo L (K + 1))
  omega

end

end Apart

namespace Dfa

/-- The words that lead from a state to an accepting one. -/
def from' (d : Dfa) (q : Nat) (w : Word) : Prop := ∃ r, d.Run q w r ∧ d.Acc r

theorem from'_iff {d : Dfa} (hd : d.WF) {q : Nat} (hq : q < d.states.length) (w : Word) :
    d.from' q w ↔ ∃ r, d.runE q w = some r ∧ d.Acc r := by
  simp only [from', run_iff hd hq]

theorem from'_next {d : Dfa} (hd : d.WF) {q : Nat} (hq : q < d.states.length) {e : Str} (he : e ∈ d.alphabet) :
    ∃ t < d.states.length, ∀ w, d.from' q (e :: w) ↔ d.from' t w := by
  obtain ⟨t, ht⟩ := nxt_exists (q := q) he
  refine ⟨t, nxt_lt hd hq ht, fun w => ?_⟩
  rw [from'_iff hd hq, from'_iff hd (nxt_lt hd hq ht)]
  simp only [runE, ht, Option.bind_some]

theorem from'_over {d : Dfa} (hd : d.WF) {q : Nat} (hq : q < d.states.length) {w : Word} (h : d.from' q w) : Over d.alphabet w := by
  obtain ⟨r, hr, _⟩ := (from'_iff hd hq w).1 h
  exact over_of_runE hr

/-- Two states of one DFA. -/
theorem apart_states {d : Dfa} (hd : d.WF) {p q : Nat} (hp : p < d.states.length) (hq : q < d.states.length) (w : Word)
    (h : ¬ (d.from' p w ↔ d.from' q w)) : ∃ v : Word, v.length + 2 ≤ d.states.length ∧ ¬ (d.from' p v ↔ d.from' q v) := by
  have := Apart.short (σ := Fin d.states.length) (fun s w => d.from' s.1 w) (· ∈ d.alphabet)
    (fun s a ha => by
      obtain ⟨t, ht, h⟩ := from'_next hd s.2 ha
      exact ⟨⟨t, ht⟩, h⟩)
    (fun s w h => from'_over hd s.2 h) ⟨p, hp⟩ ⟨q, hq⟩ w h
  simpa using this

/-- Two DFAs with the same elements. -/
theorem apart {d o : Dfa} (hd : d.WF) (ho : o.WF) (hs : ∀ e, e ∈ d.alphabet ↔ e ∈ o.alphabet) (w : Word) (h : ¬ (d.Lang w ↔ o.Lang w)) :
    ∃ v : Word, v.length + 2 ≤ d.states.length + o.states.length ∧ ¬ (d.Lang v ↔ o.Lang v) := by
  have := Apart.short (σ := Fin d.states.length ⊕ Fin o.states.length)
    (fun s w => match s with | .inl s => d.from' s.1 w | .inr s => o.from' s.1 w) (· ∈ d.alphabet)
    (fun s a ha => by
      cases s with
      | inl s =>
        obtain ⟨t, ht, h⟩ := from'_next hd s.2 ha
        exact ⟨.inl ⟨t, ht⟩, h⟩
      | inr s =>
        obtain ⟨t, ht, h⟩ := from'_next ho s.2 ((hs a).1 ha)
        exact ⟨.inr ⟨t, ht⟩, h⟩)
    (fun s w h => by
      cases s with
      | inl s => exact from'_over hd s.2 h
      | inr s => exact fun e he => (hs e).2 (from'_over ho s.2 h e he))
    (.inl ⟨d.initialState, hd.init_lt⟩) (.inr ⟨o.initialState, ho.init_lt⟩) w h
  obtain ⟨v, h1, h2⟩ := this
  exact ⟨v, by simpa [Fintype.card_sum] using h1, h2⟩

end Dfa
end Dandy
