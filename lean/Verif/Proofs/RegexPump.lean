import Verif.Proofs.RegexStrip
import Verif.Spec.RegexPump
/-! # Pumping for expressions -/

namespace Dandy
open RegexParser P RegexTree

theorem Pumps.mono {a b : Nat} {L : Language Str} (h : Pumps a L) (hab : a ≤ b) : Pumps b L := by
  intro w hw hl
  obtain ⟨x, y, z, h1, h2, h3⟩ := h w hw (by omega)
  exact ⟨x, y, z, h1, by omega, h3⟩

theorem Pumps.short {a : Nat} {L : Language Str} (h : ∀ w ∈ L, w.length ≤ a) : Pumps a L := fun w hw hl => absurd (h w hw) (by omega)

theorem Pumps.mul {a b : Nat} {L M : Language Str} (hL : Pumps a L) (hM : Pumps b M) : Pumps (a + b) (L * M) := by
  intro w hw hl
  obtain ⟨u, hu, v, hv, rfl⟩ := Language.mem_mul.1 hw
  by_cases hlu : a < u.length
  · obtain ⟨x, y, z, rfl, h2, h3, h4⟩ := hL u hu hlu
    exact ⟨x, y, z ++ v, by simp, by omega, h3, fun i => Language.mem_mul.2 ⟨_, h4 i, v, hv, by simp⟩⟩
  · obtain ⟨x, y, z, rfl, h2, h3, h4⟩ := hM v hv (by simp only [List.length_append] at hl ⊢; omega)
    exact ⟨u ++ x, y, z, by simp, by simp only [List.length_append] at h2 ⊢; omega, h3, fun i => Language.mem_mul.2 ⟨u, hu, _, h4 i, by simp⟩⟩

theorem Pumps.add {a b : Nat} {L M : Language Str} (hL : Pumps a L) (hM : Pumps b M) : Pumps (a + b) (L + M) := by
  intro w hw hl
  rcases hw with hw | hw
  · obtain ⟨x, y, z, h1, h2, h3, h4⟩ := hL w hw (by omega)
    exact ⟨x, y, z, h1, by omega, h3, fun i => Or.inl (h4 i)⟩
  · obtain ⟨x, y, z, h1, h2, h3, h4⟩ := hM w hw (by omega)
    exact ⟨x, y, z, h1, by omega, h3, fun i => Or.inr (h4 i)⟩

theorem replicate_star {L : Language Str} {u v : Word} (hu : u ∈ L) (hv : v ∈ KStar.kstar L) (i : Nat) :
    (List.replicate i u).flatten ++ v ∈ KStar.kstar L := by
  obtain ⟨S, rfl, hS⟩ := Language.mem_kstar.1 hv
  refine Language.mem_kstar.2 ⟨List.replicate i u ++ S, by simp, ?_⟩
  intro y hy
  rcases List.mem_append.1 hy with hy | hy
  · rw [(List.mem_replicate.1 hy).2]; exact hu
  · exact hS y hy

theorem Pumps.star {a : Nat} {L : Language Str} (hL : Pumps a L) : Pumps a (KStar.kstar L) := by
  intro w hw hl
  obtain ⟨S, rfl, hS⟩ := Language.mem_kstar_iff_exists_nonempty.1 hw
  cases S with
  | nil => simp at hl
  | cons u S =>
    obtain ⟨hu, hne⟩ := hS u List.mem_cons_self
    have hrest : S.flatten ∈ KStar.kstar L := Language.mem_kstar.2 ⟨S, rfl, fun y hy => (hS y (List.mem_cons_of_mem _ hy)).1⟩
    by_cases hlu : a < u.length
    · obtain ⟨x, y, z, rfl, h2, h3, h4⟩ := hL u hu hlu
      refine ⟨x, y, z ++ S.flatten, by simp, h2, h3, fun i => ?_⟩
      have := replicate_star (h4 i) hrest 1
      simpa using this
    · exact ⟨[], u, S.flatten, by simp, by simpa using hlu, hne, fun i => replicate_star hu hrest i⟩

theorem Pumps.plus {a : Nat} {L : Language Str} (hL : Pumps a L) : Pumps a (L * KStar.kstar L) := by
  intro w hw hl
  obtain ⟨u, hu, v, hv, rfl⟩ := Language.mem_mul.1 hw
  by_cases hlu : a < u.length
  · obtain ⟨x, y, z, rfl, h2, h3, h4⟩ := hL u hu hlu
    exact ⟨x, y, z ++ v, by simp, h2, h3, fun i => Language.mem_mul.2 ⟨_, h4 i, v, hv, by simp⟩⟩
  · by_cases hun : u = []
    · subst hun
      obtain ⟨x, y, z, rfl, h2, h3, h4⟩ := hL.star v hv (by simpa using hl)
      exact ⟨x, y, z, by simp, h2, h3, fun i => Language.mem_mul.2 ⟨[], hu, _, h4 i, by simp⟩⟩
    · refine ⟨[], u, v, by simp, by simpa using hlu, hun, fun i => ?_⟩
      cases i with
      | succ i =>
        refine Language.mem_mul.2 ⟨u, hu, _, replicate_star hu hv i, ?_⟩
        rw [List.replicate_succ]; simp
      | zero =>
        obtain ⟨S, rfl, hS⟩ := Language.mem_kstar.1 hv
        cases S with
        | nil => simp at hl; omega
        | cons s S =>
          exact Language.mem_mul.2 ⟨s, hS s List.mem_cons_self, S.flatten,
            Language.mem_kstar.2 ⟨S, rfl, fun y hy => hS y (List.mem_cons_of_mem _ hy)⟩, by simp⟩

theorem exprSize_append (s t : Str) : exprSize (s ++ t) = exprSize s + exprSize t := by simp [exprSize]

theorem exprSize_cons_le (c : Char) (s : Str) : exprSize s ≤ exprSize (c :: s) := by
  have := exprSize_append [c] s
  rw [List.singleton_append] at this
  omega

theorem exprSize_pos {c : Char} {s : Str} (h : c ∉ ['(', ')', '|', '*', '+']) : 1 ≤ exprSize (c :: s) := by
  unfold exprSize
  rw [List.filter_cons_of_pos (by simpa using h)]
  simp

/-- What a phrase of the grammar says about the text it is read from. -/
def Phrase (s r : Str) (L : Language Str) : Prop :=
  ∃ u, s = u ++ r ∧ Pumps (exprSize u) L ∧ ('*' ∉ u → '+' ∉ u → ∀ w ∈ L, w.length ≤ exprSize u)

theorem phrase_single {s r u : Str} {g : Str} (hs : s = u ++ r) (hu : 1 ≤ exprSize u) : Phrase s r {[g]} := by
  have h : ∀ w ∈ ({[g]} : Language Str), w.length ≤ exprSize u := by
    rintro w rfl
    simpa using hu
  exact ⟨u, hs, .short h, fun _ _ => h⟩

theorem phrase_expr {cl : Str → Nat} (h : Segmentation cl) {s r : Str} {L : Language Str} {gs : List Str} (he : ExprL cl s r L gs) : Phrase s r L := by
  refine ExprL.rec (cl := cl) (motive_1 := fun s r L _ _ => Phrase s r L) (motive_2 := fun s r L _ _ => Phrase s r L)
    (motive_3 := fun s r L _ _ => Phrase s r L) (motive_4 := fun s r L _ _ => Phrase s r L) ?_ ?_ ?_ ?_ ?_ ?_ ?_ ?_ ?_ ?_ ?_ ?_ he
  · rintro s r L gs _ ⟨u, rfl, h1, h2⟩
    have hw : exprSize u ≤ exprSize ('(' :: (u ++ [')'])) := by
      have := exprSize_append u [')']
      have := exprSize_cons_le '(' (u ++ [')'])
      omega
    refine ⟨'(' :: (u ++ [')']), by simp, h1.mono hw, fun ha hb w hw' => ?_⟩
    simp only [List.mem_cons, List.mem_append, not_or] at ha hb
    exact Nat.le_trans (h2 ha.2.1 hb.2.1 w hw') hw
  · intro r
    have h0 : ∀ w ∈ (1 : Language Str), w.length ≤ exprSize ['ε'] := by
      intro w hw
      rw [Language.mem_one] at hw
      simp [hw]
    exact ⟨['ε'], rfl, .short h0, fun _ _ => h0⟩
  · intro r
    have h0 : ∀ w ∈ (0 : Language Str), w.length ≤ exprSize ['∅'] := fun w hw => absurd hw (Language.notMem_zero w)
    exact ⟨['∅'], rfl, .short h0, fun _ _ => h0⟩
  · intro s _
    exact phrase_single (u := '\\' :: s.take (cl s)) (by simp) (exprSize_pos (by decide))
  · intro c s hc
    have hp := h.pos (c :: s) (by simp)
    refine phrase_single (u := (c :: s).take (cl (c :: s))) (by rw [List.take_append_drop]) ?_
    obtain ⟨k, hk⟩ : ∃ k, cl (c :: s) = k + 1 := ⟨cl (c :: s) - 1, by omega⟩
    rw [hk, List.take_succ_cons]
    refine exprSize_pos ?_
    intro hm
    apply hc
    unfold IsReserved
    simp only [List.mem_cons, List.not_mem_nil, or_false] at hm
    tauto
  · intro s r L gs _ h1
    exact h1
  · rintro s r L gs _ ⟨u, rfl, h1, _⟩
    refine ⟨u ++ ['*'], by simp, h1.star.mono ?_, fun ha => absurd (by simp) ha⟩
    rw [exprSize_append]; omega
  · rintro s r L gs _ ⟨u, rfl, h1, _⟩
    refine ⟨u ++ ['+'], by simp, h1.plus.mono ?_, fun _ ha => absurd (by simp) ha⟩
    rw [exprSize_append]; omega
  · intro s r L gs _ h1
    exact h1
  · rintro s m r L M gs hs _ _ ⟨u, rfl, h1, h2⟩ ⟨v, rfl, h3, h4⟩
    refine ⟨u ++ v, by simp, by rw [exprSize_append]; exact h1.mul h3, fun ha hb w hw => ?_⟩
    simp only [List.mem_append, not_or] at ha hb
    obtain ⟨x, hx, y, hy, rfl⟩ := Language.mem_mul.1 hw
    have e1 := h2 ha.1 hb.1 x hx
    have e2 := h4 ha.2 hb.2 y hy
    rw [exprSize_append, List.length_append]
    omega
  · intro s r L gs _ h1
    exact h1
  · rintro s m r L M gs hs _ _ ⟨u, rfl, h1, h2⟩ ⟨v, rfl, h3, h4⟩
    have e : exprSize (u ++ '|' :: v) = exprSize u + exprSize v := by
      rw [exprSize_append]
      rfl
    refine ⟨u ++ '|' :: v, by simp, by rw [e]; exact h1.add h3, fun ha hb w hw => ?_⟩
    simp only [List.mem_append, List.mem_cons, not_or] at ha hb
    rw [e]
    rcases hw with hw | hw
    · have := h2 ha.1 hb.1 w hw; omega
    · have := h4 ha.2.2 hb.2.2 w hw; omega

/-- White space around a text only makes the number larger. -/
theorem exprSize_trim {text core : Str} (h : Trimmed text core) : exprSize core ≤ exprSize text := by
  obtain ⟨a, b, rfl, _⟩ := h
  rw [exprSize_append, exprSize_append]
  omega

/-- Consequences of pumping: long words, short words, and middle ones. -/
theorem Pumps.finite_iff {m : Nat} {L : Language Str} (h : Pumps m L) :
    ((∃ w, w ∈ L) → ∃ w ∈ L, w.length ≤ m) ∧ ((∃ w ∈ L, m < w.length) → ∃ w ∈ L, m < w.length ∧ w.length ≤ 2 * m) ∧
    ((∃ w ∈ L, m < w.length) → ∀ k, ∃ w ∈ L, k ≤ w.length) := by
  have down : ∀ k, ∀ w ∈ L, w.length = k → m < w.length → ∃ v ∈ L, v.length < w.length ∧ w.length ≤ v.length + m := by
    intro k w hw _ hl
    obtain ⟨x, y, z, rfl, h2, h3, h4⟩ := h w hw hl
    have hy : 0 < y.length := List.length_pos_of_ne_nil h3
    refine ⟨_, h4 0, ?_, ?_⟩
    · simp; omega
    · simp at h2 ⊢; omega
  refine ⟨?_, ?_, ?_⟩
  · rintro ⟨w, hw⟩
    induction hn : w.length using Nat.strongRecOn generalizing w with
    | _ n ih =>
      by_cases hl : w.length ≤ m
      · exact ⟨w, hw, hl⟩
      · obtain ⟨v, h1, h2, _⟩ := down _ w hw rfl (by omega)
        exact ih v.length (by omega) v h1 rfl
  · rintro ⟨w, hw, hl⟩
    induction hn : w.length using Nat.strongRecOn generalizing w with
    | _ n ih =>
      by_cases hl2 : w.length ≤ 2 * m
      · exact ⟨w, hw, hl, hl2⟩
      · obtain ⟨v, h1, h2, h3⟩ := down _ w hw rfl hl
        exact ih v.length (by omega) v h1 (by omega) rfl
  · rintro ⟨w, hw, hl⟩ k
    obtain ⟨x, y, z, rfl, h2, h3, h4⟩ := h w hw hl
    have hy : 0 < y.length := List.length_pos_of_ne_nil h3
    refine ⟨_, h4 k, ?_⟩
    have e : (List.replicate k y).flatten.length = k * y.length := by simp
    rw [List.length_append, List.length_append, e]
    have := Nat.le_mul_of_pos_right k hy
    omega

end Dandy
