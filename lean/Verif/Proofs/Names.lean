import Verif.Model.Nfa
import Verif.Proofs.Basic
/-! # Lemmas about generated names -/

namespace Dandy

theorem numStr_inj {m n : Nat} (h : numStr m = numStr n) : m = n := by
  have := congrArg (fun l => Nat.ofDigitChars 10 l 0) h
  simpa [numStr, Nat.ofDigitChars_ten_toDigits] using this

theorem takeNames_prefix {κ : Type} (f : κ → Str) (l : List κ) (hm : List Str) :
    ∃ k ≤ l.length, takeNames f l hm = (l.take k).map (fun x => (x, f x)) ∧
      ((l.take k).map f).Nodup ∧ ∀ x ∈ l.take k, f x ∉ hm := by
  induction l generalizing hm with
  | nil => exact ⟨0, by simp [takeNames]⟩
  | cons a as ih =>
    simp only [takeNames]
    split
    · exact ⟨0, by simp⟩
    · rename_i hn
      obtain ⟨k, hk, h1, h2, h3⟩ := ih (f a :: hm)
      refine ⟨k + 1, by simpa using hk, by simp [h1], ?_, ?_⟩
      · simp only [List.take_succ_cons, List.map_cons, List.nodup_cons]
        refine ⟨?_, h2⟩
        intro hc
        obtain ⟨x, hx, hfx⟩ := List.mem_map.1 hc
        exact h3 x hx (by simp [hfx])
      · intro x hx
        rw [List.take_succ_cons, List.mem_cons] at hx
        rcases hx with rfl | hx
        · exact hn
        · have := h3 x hx; simp only [List.mem_cons, not_or] at this; exact this.2

theorem lookup_map_self {κ : Type} [BEq κ] [LawfulBEq κ] (f : κ → Str) (l : List κ) {k : κ} (h : k ∈ l) :
    (l.map (fun x => (x, f x))).lookup k = some (f k) := by
  induction l with
  | nil => simp at h
  | cons a as ih =>
    simp only [List.map_cons, List.lookup]
    by_cases hka : k = a
    · subst hka; simp
    · have : (k == a) = false := by simpa using hka
      rw [this]
      exact ih (by simpa [hka] using h)

theorem lookup_zipIdx {κ : Type} [BEq κ] [LawfulBEq κ] (l : List κ) (i : Nat) {k : κ} (h : k ∈ l) (hn : l.Nodup) :
    ((l.zipIdx i).map (fun p => (p.1, numStr p.2))).lookup k = some (numStr (i + l.idxOf k)) := by
  induction l generalizing i with
  | nil => simp at h
  | cons a as ih =>
    simp only [List.zipIdx_cons, List.map_cons, List.lookup]
    by_cases hka : k = a
    · subst hka; simp
    · have : (k == a) = false := by simpa using hka
      rw [this]
      simp only [List.nodup_cons] at hn
      rw [ih (i + 1) (by simpa [hka] using h) hn.2, List.idxOf_cons_ne as (fun h => hka h.symm)]
      have : i + 1 + as.idxOf k = i + (as.idxOf k).succ := by omega
      rw [this]

theorem takeNames_inj {κ : Type} (f : κ → Str) (l : List κ) (hm : List Str) (hn : l.Nodup)
    (hf : ∀ j ∈ l, ∀ k ∈ l, f j = f k → j = k) (hhm : ∀ j ∈ l, f j ∉ hm) : (takeNames f l hm).length = l.length := by
  induction l generalizing hm with
  | nil => rfl
  | cons a as ih =>
    rw [List.nodup_cons] at hn
    rw [takeNames, if_neg (hhm a (by simp)), List.length_cons, List.length_cons, ih _ hn.2]
    · intro j hj k hk; exact hf j (List.mem_cons_of_mem _ hj) k (List.mem_cons_of_mem _ hk)
    · intro j hj
      rw [List.mem_cons, not_or]
      refine ⟨fun h => hn.1 ?_, hhm j (List.mem_cons_of_mem _ hj)⟩
      rw [← hf j (List.mem_cons_of_mem _ hj) a (by simp) h]; exact hj

/-- Every key gets a name, and different keys get different names; if the wanted names are different, then these. -/
theorem genNames_spec {κ : Type} [BEq κ] [LawfulBEq κ] (f : κ → Str) (l : List κ) (hn : l.Nodup) :
    ∃ g : κ → Str, (∀ k ∈ l, (genNames f l l.length).lookup k = some (g k)) ∧
      (∀ j ∈ l, ∀ k ∈ l, g j = g k → j = k) ∧
      ((∀ k ∈ l, g k = f k) ∨ ∀ k ∈ l, ∃ i, g k = numStr i) ∧
      ((∀ j ∈ l, ∀ k ∈ l, f j = f k → j = k) → ∀ k ∈ l, g k = f k) := by
  unfold genNames
  obtain ⟨k, hk, h1, h2, _⟩ := takeNames_prefix f l []
  simp only
  split
  · rename_i hlt
    refine ⟨fun x => numStr (l.idxOf x), ?_, ?_, ?_, ?_⟩
    · intro x hx
      have := lookup_zipIdx l 0 hx hn
      simpa using this
    · intro x hx y hy hxy
      have := numStr_inj hxy
      exact (List.idxOf_inj hx).1 this
    · right; intro x _; exact ⟨_, rfl⟩
    · intro hf; rw [takeNames_inj f l [] hn hf (by simp)] at hlt; omega
  · rename_i hlen
    rw [h1] at hlen
    simp only [List.length_map, List.length_take] at hlen
    have hk' : k = l.length := by omega
    subst hk'
    rw [List.take_length] at h1 h2
    refine ⟨f, ?_, ?_, ?_, fun _ _ _ => rfl⟩
    · intro x hx; rw [h1]; exact lookup_map_self f l hx
    · intro x hx y hy hxy
      exact List.inj_on_of_nodup_map h2 hx hy hxy
    · left; intro _ _; rfl

/-! ## freshName -/

theorem freshNumber_spec (names : List Str) (k i : Nat) :
    (∃ j, i ≤ j ∧ j < i + k ∧ Nfa.freshNumber names k i = numStr j ∧ numStr j ∉ names) ∨
    (∀ j, i ≤ j → j < i + k → numStr j ∈ names) := by
  induction k generalizing i with
  | zero => right; intro j h1 h2; omega
  | succ k ih =>
    simp only [Nfa.freshNumber]
    split
    · rename_i hmem
      rcases ih (i + 1) with ⟨j, h1, h2, h3, h4⟩ | h
      · left; exact ⟨j, by omega, by omega, h3, h4⟩
      · right
        intro j h1 h2
        by_cases hj : j = i
        · subst hj; exact hmem
        · exact h j (by omega) (by omega)
    · rename_i hmem
      left; exact ⟨i, by omega, by omega, rfl, hmem⟩

theorem freshName_spec (names : List Str) (wanted : Str) :
    Nfa.freshName names wanted ∉ names ∧
    (Nfa.freshName names wanted = wanted ∨ ∃ i, Nfa.freshName names wanted = numStr i) := by
  unfold Nfa.freshName
  split
  · rename_i h; exact ⟨h, Or.inl rfl⟩
  · rcases freshNumber_spec names (names.length + 1) 0 with ⟨j, _, _, h3, h4⟩ | h
    · rw [h3]; exact ⟨h4, Or.inr ⟨j, rfl⟩⟩
    · exfalso
      have hnd : ((List.range (names.length + 1)).map numStr).Nodup :=
        List.Nodup.map (fun _ _ h => numStr_inj h) List.nodup_range
      have := nodup_subset_length_le hnd (K := names) (by
        intro x hx
        obtain ⟨j, hj, rfl⟩ := List.mem_map.1 hx
        exact h j (Nat.zero_le _) (by simpa using hj))
      simp only [List.length_map, List.length_range] at this
      omega

end Dandy
