import Verif.Model.Basic
import Mathlib.Data.List.Nodup
import Mathlib.Data.List.Sort
import Mathlib.Data.Finset.Card
import Mathlib.Logic.Relation
/-! # Lemmas about the shared building blocks -/

namespace Dandy

/-! ## revGet -/

theorem revGetFrom_none {α : Type} [DecidableEq α] (l : List α) (i : Nat) (e : α) :
    revGetFrom i l e = none ↔ e ∉ l := by
  induction l generalizing i with
  | nil => simp [revGetFrom]
  | cons a as ih =>
    simp only [revGetFrom]
    have := ih (i + 1)
    split
    · grind
    · split <;> grind

theorem revGetFrom_some {α : Type} [DecidableEq α] (l : List α) (i j : Nat) (e : α)
    (h : revGetFrom i l e = some j) : i ≤ j ∧ l[j - i]? = some e := by
  induction l generalizing i with
  | nil => simp [revGetFrom] at h
  | cons a as ih =>
    simp only [revGetFrom] at h
    split at h
    · rename_i k hk
      have := ih (i + 1) (by rw [hk]; exact h)
      have h2 : j - i = (j - (i + 1)) + 1 := by omega
      rw [h2]
      grind
    · split at h <;> grind

theorem revGet_none {α : Type} [DecidableEq α] {l : List α} {e : α} : revGet l e = none ↔ e ∉ l :=
  revGetFrom_none l 0 e

theorem revGet_some {α : Type} [DecidableEq α] {l : List α} {e : α} {j : Nat}
    (h : revGet l e = some j) : l[j]? = some e := by
  simpa using (revGetFrom_some l 0 j e h).2

theorem revGet_of_getElem? {α : Type} [DecidableEq α] {l : List α} {e : α} {j : Nat} (hn : l.Nodup)
    (h : l[j]? = some e) : revGet l e = some j := by
  cases hr : revGet l e with
  | none => rw [revGet_none] at hr; exact absurd (List.mem_of_getElem? h) hr
  | some k =>
    have := revGet_some hr
    have hk : k < l.length := by
      by_contra hc
      rw [List.getElem?_eq_none (by omega)] at this; simp at this
    congr 1
    exact (List.getElem?_inj hk hn).1 (by rw [this, h])

theorem revGet_lt {α : Type} [DecidableEq α] {l : List α} {e : α} {j : Nat}
    (h : revGet l e = some j) : j < l.length := by
  have := revGet_some h
  by_contra hc
  rw [List.getElem?_eq_none (by omega)] at this; simp at this

theorem revGet_exists {α : Type} [DecidableEq α] {l : List α} {e : α} (h : e ∈ l) :
    ∃ j, revGet l e = some j := by
  cases hr : revGet l e with
  | none => rw [revGet_none] at hr; exact absurd h hr
  | some k => exact ⟨k, rfl⟩

/-! ## Sets as increasing lists -/

@[simp] theorem mem_sins {x y : Nat} {l : List Nat} : y ∈ sins x l ↔ y = x ∨ y ∈ l := by
  induction l with
  | nil => simp [sins]
  | cons a as ih =>
    simp only [sins]
    split
    · simp
    · split <;> grind

theorem sorted_sins {x : Nat} {l : List Nat} (h : l.Pairwise (· < ·)) : (sins x l).Pairwise (· < ·) := by
  induction l with
  | nil => simp [sins]
  | cons a as ih =>
    simp only [sins]
    rw [List.pairwise_cons] at h
    split
    · grind [List.pairwise_cons]
    · split
      · grind [List.pairwise_cons]
      · rw [List.pairwise_cons]
        refine ⟨?_, ih h.2⟩
        intro y hy
        rw [mem_sins] at hy
        grind

@[simp] theorem mem_sextend {y : Nat} {s l : List Nat} : y ∈ sextend s l ↔ y ∈ s ∨ y ∈ l := by
  unfold sextend
  induction l generalizing s with
  | nil => simp
  | cons a as ih => simp only [List.foldl_cons, ih, mem_sins, List.mem_cons]; grind

theorem sorted_sextend {s l : List Nat} (h : s.Pairwise (· < ·)) : (sextend s l).Pairwise (· < ·) := by
  unfold sextend
  induction l generalizing s with
  | nil => simpa
  | cons a as ih => exact ih (sorted_sins h)

@[simp] theorem mem_sofList {y : Nat} {l : List Nat} : y ∈ sofList l ↔ y ∈ l := by simp [sofList]

theorem sorted_sofList (l : List Nat) : (sofList l).Pairwise (· < ·) := sorted_sextend List.Pairwise.nil

theorem sorted_nodup {l : List Nat} (h : l.Pairwise (· < ·)) : l.Nodup :=
  h.imp (fun hab => Nat.ne_of_lt hab)

/-- Increasing lists with the same elements are equal. -/
theorem sorted_ext {l₁ l₂ : List Nat} (h₁ : l₁.Pairwise (· < ·)) (h₂ : l₂.Pairwise (· < ·))
    (h : ∀ x, x ∈ l₁ ↔ x ∈ l₂) : l₁ = l₂ := by
  induction l₁ generalizing l₂ with
  | nil =>
    cases l₂ with
    | nil => rfl
    | cons b bs => have := h b; simp at this
  | cons a as ih =>
    cases l₂ with
    | nil => have := h a; simp at this
    | cons b bs =>
      rw [List.pairwise_cons] at h₁ h₂
      have hab : a = b := by
        have ha := (h a).1 (by simp)
        have hb := (h b).2 (by simp)
        rcases List.mem_cons.1 ha with rfl | ha
        · rfl
        · rcases List.mem_cons.1 hb with rfl | hb
          · rfl
          · have := h₁.1 b hb; have := h₂.1 a ha; omega
      subst hab
      congr 1
      apply ih h₁.2 h₂.2
      intro x
      have hx := h x
      simp only [List.mem_cons] at hx
      constructor
      · intro hxa
        rcases hx.1 (Or.inr hxa) with rfl | h'
        · exact absurd (h₁.1 x hxa) (Nat.lt_irrefl _)
        · exact h'
      · intro hxb
        rcases hx.2 (Or.inr hxb) with rfl | h'
        · exact absurd (h₂.1 x hxb) (Nat.lt_irrefl _)
        · exact h'

theorem sorted_filter_range (n : Nat) (p : Nat → Bool) : ((List.range n).filter p).Pairwise (· < ·) :=
  List.Pairwise.filter _ List.pairwise_lt_range

theorem nodup_length_le {l : List Nat} {n : Nat} (h : l.Nodup) (hlt : ∀ x ∈ l, x < n) : l.length ≤ n := by
  have := (List.subperm_of_subset h (fun x hx => List.mem_range.2 (hlt x hx))).length_le
  simpa using this

/-- Pigeonhole for duplicate free lists contained in another list. -/
theorem nodup_subset_length_le {α : Type} {l K : List α} (h : l.Nodup) (hs : ∀ x ∈ l, x ∈ K) :
    l.length ≤ K.length := (List.subperm_of_subset h hs).length_le

/-! ## mapM over Option -/

theorem mapM_some {α β : Type} {f : α → Option β} {g : α → β} {l : List α} (h : ∀ x ∈ l, f x = some (g x)) :
    l.mapM f = some (l.map g) := by
  induction l with
  | nil => simp
  | cons a as ih =>
    rw [List.mapM_cons, h a (by simp), ih (fun x hx => h x (List.mem_cons_of_mem _ hx))]
    rfl

theorem mapM_some_iff {α β : Type} {f : α → Option β} {l : List α} {r : List β} :
    l.mapM f = some r ↔ List.Forall₂ (fun a b => f a = some b) l r := by
  induction l generalizing r with
  | nil => simp only [List.mapM_nil]; constructor
           · intro h; cases h; exact .nil
           · intro h; cases h; rfl
  | cons a as ih =>
    rw [List.mapM_cons]
    constructor
    · intro h
      cases ha : f a with
      | none => rw [ha] at h; cases h
      | some b =>
        rw [ha] at h
        cases hr : as.mapM f with
        | none => rw [hr] at h; cases h
        | some bs =>
          rw [hr] at h
          cases h
          exact .cons ha (ih.1 hr)
    · intro h
      cases h with
      | cons h1 h2 => rw [h1, ih.2 h2]; rfl

/-! ## The level-wise search -/

theorem addNew_spec (ts all new : List Nat) (hs : all.Pairwise (· < ·)) :
    let p := addNew ts (all, new)
    p.1.Pairwise (· < ·) ∧ (∀ x, x ∈ p.1 ↔ x ∈ all ∨ x ∈ ts) ∧
    (∀ x, x ∈ p.2 ↔ x ∈ new ∨ (x ∈ ts ∧ x ∉ all)) ∧
    p.1.length + new.length = all.length + p.2.length := by
  induction ts generalizing all new with
  | nil => simp [addNew, hs]
  | cons t ts ih =>
    simp only [addNew]
    split
    · rename_i hmem
      obtain ⟨h1, h2, h3, h4⟩ := ih all new hs
      refine ⟨h1, fun x => ?_, fun x => ?_, h4⟩
      · rw [h2, List.mem_cons]
        constructor
        · rintro (h | h)
          · exact Or.inl h
          · exact Or.inr (Or.inr h)
        · rintro (h | rfl | h)
          · exact Or.inl h
          · exact Or.inl hmem
          · exact Or.inr h
      · rw [h3, List.mem_cons]
        constructor
        · rintro (h | ⟨h, h'⟩)
          · exact Or.inl h
          · exact Or.inr ⟨Or.inr h, h'⟩
        · rintro (h | ⟨rfl | h, h'⟩)
          · exact Or.inl h
          · exact absurd hmem h'
          · exact Or.inr ⟨h, h'⟩
    · rename_i hmem
      obtain ⟨h1, h2, h3, h4⟩ := ih (sins t all) (new ++ [t]) (sorted_sins hs)
      have hlen : (sins t all).length = all.length + 1 := by
        clear ih h1 h2 h3 h4
        induction all with
        | nil => simp [sins]
        | cons a as ih2 =>
          simp only [List.mem_cons, not_or] at hmem
          rw [List.pairwise_cons] at hs
          simp only [sins]
          split
          · simp
          · rw [if_neg hmem.1]
            simp only [List.length_cons]
            rw [ih2 hs.2 hmem.2]
      simp only [mem_sins, List.mem_append, List.mem_singleton, List.length_append, List.length_singleton] at h2 h3 h4
      refine ⟨h1, fun x => ?_, fun x => ?_, by omega⟩
      · rw [h2, List.mem_cons]
        tauto
      · rw [h3, List.mem_cons]
        constructor
        · rintro ((h | rfl) | ⟨h, h'⟩)
          · exact Or.inl h
          · exact Or.inr ⟨Or.inl rfl, hmem⟩
          · exact Or.inr ⟨Or.inr h, fun hc => h' (Or.inr hc)⟩
        · rintro (h | ⟨rfl | h, h'⟩)
          · exact Or.inl (Or.inl h)
          · exact Or.inl (Or.inr rfl)
          · by_cases hxt : x = t
            · exact Or.inl (Or.inr hxt)
            · exact Or.inr ⟨h, by tauto⟩

/-- Correctness of the level-wise search: started with enough fuel from one element of a finite range that is
closed under successors, it terminates with exactly the reachable elements. -/
theorem bfs_spec {succ : Nat → Option (List Nat)} {f : Nat → List Nat} {n start : Nat}
    (hsucc : ∀ q < n, succ q = some (f q)) (hf : ∀ q < n, ∀ t ∈ f q, t < n) (hstart : start < n) :
    ∃ r, bfs succ (n + 1) [start] [start] = some r ∧ r.Pairwise (· < ·) ∧
      ∀ q, q ∈ r ↔ Relation.ReflTransGen (fun a b => b ∈ f a) start q := by
  have main : ∀ (k : Nat) (all new : List Nat), all.Pairwise (· < ·) → (∀ x ∈ all, x < n) →
      (∀ x ∈ new, x ∈ all) → start ∈ all →
      (∀ x ∈ all, Relation.ReflTransGen (fun a b => b ∈ f a) start x) →
      (∀ x ∈ all, x ∉ new → ∀ t ∈ f x, t ∈ all) →
      (new ≠ [] → n - all.length + 2 ≤ k) → 1 ≤ k →
      ∃ r, bfs succ k all new = some r ∧ r.Pairwise (· < ·) ∧
      ∀ q, q ∈ r ↔ Relation.ReflTransGen (fun a b => b ∈ f a) start q := by
    intro k
    induction k with
    | zero => intro all new _ _ _ _ _ _ _ h1; omega
    | succ k ih =>
      intro all new hsort hlt hnew hst hreach hcl hk _
      simp only [bfs]
      split
      · rename_i hempty
        subst hempty
        refine ⟨all, rfl, hsort, fun q => ⟨hreach q, fun h => ?_⟩⟩
        induction h with
        | refl => exact hst
        | tail _ hbc ih2 => exact hcl _ ih2 (by simp) _ hbc
      · rename_i hne
        have hm : new.mapM succ = some (new.map f) :=
          mapM_some (fun x hx => hsucc x (hlt x (hnew x hx)))
        rw [hm]
        simp only
        obtain ⟨h1, h2, h3, h4⟩ := addNew_spec (new.map f).flatten all [] hsort
        have hfl : ∀ x, x ∈ (new.map f).flatten ↔ ∃ y ∈ new, x ∈ f y := by
          intro x; simp [List.mem_flatten]
        have hk' := hk hne
        have hlen : (addNew (new.map f).flatten (all, [])).1.length ≤ n := by
          apply nodup_length_le (sorted_nodup h1)
          intro x hx
          rcases (h2 x).1 hx with h | h
          · exact hlt x h
          · obtain ⟨y, hy, hxy⟩ := (hfl x).1 h
            exact hf y (hlt y (hnew y hy)) x hxy
        apply ih
        · exact h1
        · intro x hx
          rcases (h2 x).1 hx with h | h
          · exact hlt x h
          · obtain ⟨y, hy, hxy⟩ := (hfl x).1 h
            exact hf y (hlt y (hnew y hy)) x hxy
        · intro x hx
          rw [h2]; rw [h3] at hx; grind
        · rw [h2]; exact Or.inl hst
        · intro x hx
          rcases (h2 x).1 hx with h | h
          · exact hreach x h
          · obtain ⟨y, hy, hxy⟩ := (hfl x).1 h
            exact (hreach y (hnew y hy)).tail hxy
        · intro x hx hxn t ht
          rw [h2]
          rw [h3] at hxn
          rw [h2] at hx
          by_cases hxall : x ∈ all
          · by_cases hxnew : x ∈ new
            · right; rw [hfl]; exact ⟨x, hxnew, ht⟩
            · left; exact hcl x hxall hxnew t ht
          · grind
        · intro hne2
          have : 0 < (addNew (new.map f).flatten (all, [])).2.length := List.length_pos_iff.2 hne2
          simp only [List.length_nil, Nat.add_zero] at h4
          omega
        · omega
  have hl : ([start] : List Nat).length = 1 := rfl
  exact main (n + 1) [start] [start] (by simp) (by simpa using hstart) (by simp) (by simp)
    (by simp; exact Relation.ReflTransGen.refl) (by grind) (by intro _; rw [hl]; omega) (by omega)

/-! ## The stack based exploration -/

theorem pushNew_spec {σ κ : Type} [DecidableEq κ] {key : σ → κ} (ts : List σ) (stack seen : List σ)
    (hnd : (seen.map key).Nodup) :
    ∃ new : List σ, pushNew key ts (stack, seen) = (new.reverse ++ stack, seen ++ new) ∧
      (∀ t ∈ new, t ∈ ts) ∧ ((seen ++ new).map key).Nodup ∧
      (∀ t ∈ ts, key t ∈ (seen ++ new).map key) := by
  induction ts generalizing stack seen with
  | nil => exact ⟨[], by simp [pushNew], by simp, by simpa using hnd, by simp⟩
  | cons t ts ih =>
    simp only [pushNew]
    split
    · rename_i hmem
      obtain ⟨new, h1, h2, h3, h4⟩ := ih stack seen hnd
      refine ⟨new, h1, fun x hx => List.mem_cons_of_mem _ (h2 x hx), h3, ?_⟩
      intro x hx
      rcases List.mem_cons.1 hx with rfl | hx
      · rw [List.map_append]; exact List.mem_append_left _ hmem
      · exact h4 x hx
    · rename_i hmem
      obtain ⟨new, h1, h2, h3, h4⟩ := ih (t :: stack) (seen ++ [t]) (by
        rw [List.map_append, List.nodup_append]
        refine ⟨hnd, by simp, ?_⟩
        intro a ha b hb
        simp only [List.map_cons, List.map_nil, List.mem_singleton] at hb
        subst hb; intro hab; subst hab; exact hmem ha)
      refine ⟨t :: new, ?_, ?_, ?_, ?_⟩
      · rw [h1]; simp
      · intro x hx
        rcases List.mem_cons.1 hx with rfl | hx
        · simp
        · exact List.mem_cons_of_mem _ (h2 x hx)
      · simpa using h3
      · intro x hx
        rcases List.mem_cons.1 hx with rfl | hx
        · simp
        · simpa using h4 x hx

/-- What the exploration computes. -/
structure Explored {σ κ : Type} (key : σ → κ) (succ : σ → List σ) (ok : σ → Bool) (s0 : σ)
    (out seen : List σ) : Prop where
  keys_nodup : (seen.map key).Nodup
  perm : seen.Perm out
  head : ∃ rest, seen = s0 :: rest
  out_head : ∃ rest, out = s0 :: rest
  mem_iff : ∀ s, s ∈ seen ↔ Relation.ReflTransGen (fun a b => b ∈ succ a) s0 s
  all_ok : ∀ s ∈ seen, ok s = true

theorem explore_spec {σ κ : Type} [DecidableEq κ] {key : σ → κ} {succ : σ → List σ} {ok : σ → Bool}
    (Inv : σ → Prop) {s0 : σ} (K : List κ) {fuel : Nat}
    (h0 : Inv s0) (hInv : ∀ s, Inv s → ∀ t ∈ succ s, Inv t)
    (hinj : ∀ s t, Inv s → Inv t → key s = key t → s = t)
    (hK : ∀ s, Inv s → key s ∈ K) (hfuel : K.length + 1 ≤ fuel) :
    (explore key succ ok fuel [s0] [s0] [] = some none ∧
      ∃ s, Relation.ReflTransGen (fun a b => b ∈ succ a) s0 s ∧ ok s = false) ∨
    (∃ out seen, explore key succ ok fuel [s0] [s0] [] = some (some (out, seen)) ∧
      Explored key succ ok s0 out seen) := by
  have hreachInv : ∀ s, Relation.ReflTransGen (fun a b => b ∈ succ a) s0 s → Inv s := by
    intro s h
    induction h with
    | refl => exact h0
    | tail _ hbc ih => exact hInv _ ih _ hbc
  have main : ∀ (k : Nat) (stack seen out : List σ), (seen.map key).Nodup → seen.Perm (out ++ stack) →
      (∃ rest, seen = s0 :: rest) → (∃ rest, out ++ stack = s0 :: rest) →
      (out = [] → stack = [s0]) →
      (∀ s ∈ seen, Relation.ReflTransGen (fun a b => b ∈ succ a) s0 s) →
      (∀ s ∈ out, ok s = true ∧ ∀ t ∈ succ s, t ∈ seen) →
      K.length + 1 ≤ k + out.length →
      (explore key succ ok k stack seen out = some none ∧
        ∃ s, Relation.ReflTransGen (fun a b => b ∈ succ a) s0 s ∧ ok s = false) ∨
      (∃ out' seen', explore key succ ok k stack seen out = some (some (out', seen')) ∧
        Explored key succ ok s0 out' seen') := by
    intro k
    induction k with
    | zero =>
      intro stack seen out hnd hperm _ _ _ hreach _ hfu
      exfalso
      have h1 : seen.length ≤ K.length := by
        have := nodup_subset_length_le hnd (K := K) (by
          intro x hx
          obtain ⟨s, hs, rfl⟩ := List.mem_map.1 hx
          exact hK s (hreachInv s (hreach s hs)))
        simpa using this
      have h2 := hperm.length_eq
      simp only [List.length_append] at h2
      omega
    | succ k ih =>
      intro stack seen out hnd hperm hhead hhead2 hout hreach hcl hfu
      cases stack with
      | nil =>
        right
        simp only [List.append_nil] at hperm hhead2
        refine ⟨out, seen, rfl, hnd, hperm, hhead, hhead2, ?_, ?_⟩
        · intro s
          refine ⟨hreach s, fun h => ?_⟩
          induction h with
          | refl => obtain ⟨rest, hr⟩ := hhead; rw [hr]; simp
          | tail _ hbc ih2 => exact (hcl _ (hperm.mem_iff.1 ih2)).2 _ hbc
        · intro s hs; exact (hcl s (hperm.mem_iff.1 hs)).1
      | cons s stack =>
        have hsseen : s ∈ seen := hperm.mem_iff.2 (by simp)
        simp only [explore]
        cases hok : ok s with
        | false =>
          left
          exact ⟨by simp, s, hreach s hsseen, hok⟩
        | true =>
          simp only [if_true]
          obtain ⟨new, h1, h2, h3, h4⟩ := pushNew_spec (key := key) (succ s) stack seen hnd
          rw [h1]
          simp only
          have hreach' : ∀ t ∈ seen ++ new, Relation.ReflTransGen (fun a b => b ∈ succ a) s0 t := by
            intro t ht
            rcases List.mem_append.1 ht with ht | ht
            · exact hreach t ht
            · exact (hreach s hsseen).tail (h2 t ht)
          apply ih
          · exact h3
          · have : (out ++ [s] ++ (new.reverse ++ stack)).Perm (out ++ (s :: stack) ++ new) := by
              rw [List.append_assoc, List.append_assoc]
              apply List.Perm.append_left
              simp only [List.cons_append, List.nil_append]
              apply List.Perm.cons
              exact (List.perm_append_comm).trans ((List.reverse_perm new).append_left stack)
            exact (hperm.append_right new).trans this.symm
          · obtain ⟨rest, hr⟩ := hhead; exact ⟨rest ++ new, by rw [hr]; simp⟩
          · cases out with
            | nil =>
              have := hout rfl
              simp only [List.cons.injEq] at this
              rw [this.1]; exact ⟨new.reverse ++ stack, by simp⟩
            | cons a as =>
              obtain ⟨rest, hr⟩ := hhead2
              simp only [List.cons_append, List.cons.injEq] at hr
              rw [hr.1]; exact ⟨as ++ [s] ++ (new.reverse ++ stack), by simp⟩
          · simp
          · exact hreach'
          · intro x hx
            rcases List.mem_append.1 hx with hx | hx
            · exact ⟨(hcl x hx).1, fun t ht => List.mem_append_left _ ((hcl x hx).2 t ht)⟩
            · simp only [List.mem_singleton] at hx
              subst hx
              refine ⟨hok, fun t ht => ?_⟩
              obtain ⟨u, hu, hkey⟩ := List.mem_map.1 (h4 t ht)
              have : u = t := hinj u t (hreachInv u (hreach' u hu)) (hInv x (hreachInv x (hreach x hsseen)) t ht) hkey
              rw [← this]; exact hu
          · simp only [List.length_append, List.length_singleton]; omega
  exact main fuel [s0] [s0] [] (by simp) (by simp) ⟨[], rfl⟩ ⟨[], rfl⟩ (by simp)
    (by simp; exact Relation.ReflTransGen.refl) (by simp) (by simpa using hfuel)

end Dandy
