import Verif.Spec.Draw
import Verif.Proofs.Basic
import Mathlib.Tactic.Tauto
import Mathlib.Data.List.Perm.Basic
/-! # Placing and grouping arrows -/

namespace Dandy
namespace Draw

section place
variable {α : Type} {left right : α → Nat}

theorem insertArrow_perm (a : α) (l : List α) : (insertArrow right a l).Perm (a :: l) := by
  induction l with
  | nil => exact List.Perm.refl _
  | cons b bs ih =>
    unfold insertArrow
    split
    · exact List.Perm.refl _
    · exact (ih.cons b).trans (List.Perm.swap a b bs)

theorem sortArrows_perm (as : List α) : (sortArrows right as).Perm as := by
  induction as with
  | nil => exact List.Perm.refl _
  | cons a as ih => exact (insertArrow_perm a _).trans (ih.cons a)

theorem insertArrow_sorted (a : α) (l : List α) (h : l.Pairwise (fun x y => right y ≤ right x)) :
    (insertArrow right a l).Pairwise (fun x y => right y ≤ right x) := by
  induction l with
  | nil => exact List.pairwise_singleton _ _
  | cons b bs ih =>
    obtain ⟨h1, h2⟩ := List.pairwise_cons.1 h
    unfold insertArrow
    split
    · rename_i hle
      refine List.pairwise_cons.2 ⟨?_, h⟩
      intro x hx
      rcases List.mem_cons.1 hx with rfl | hx
      · exact hle
      · exact le_trans (h1 x hx) hle
    · rename_i hlt
      refine List.pairwise_cons.2 ⟨?_, ih h2⟩
      intro x hx
      rcases List.mem_cons.1 ((insertArrow_perm a bs).mem_iff.1 hx) with rfl | hx
      · omega
      · exact h1 x hx

theorem sortArrows_sorted (as : List α) : (sortArrows right as).Pairwise (fun x y => right y ≤ right x) := by
  induction as with
  | nil => exact List.Pairwise.nil
  | cons a as ih => exact insertArrow_sorted a _ ih

/-- What a pass does: `q` in popping order (right ends increase), everything placed before ends at or before `e`. -/
theorem pass_spec (depth : Nat) : ∀ (q : List α) (e : Nat), q.Pairwise (fun x y => right x ≤ right y) → (∀ a ∈ q, left a ≤ right a) →
    let r := pass left right depth e q
    ((r.1.map (·.arrow)) ++ r.2).Perm q ∧ r.2.Sublist q ∧ (∀ p ∈ r.1, p.level = depth ∧ p.arrow ∈ q ∧ e ≤ left p.arrow) ∧
    r.1.Pairwise (fun x y => Before (left x.arrow) (right x.arrow) (left y.arrow) (right y.arrow)) ∧
    ∀ a ∈ r.2, left a < e ∨ ∃ p ∈ r.1, right p.arrow ≤ right a ∧ ¬ Before (left p.arrow) (right p.arrow) (left a) (right a)
  | [], e, _, _ => by simp [pass]
  | a :: as, e, hs, hl => by
    obtain ⟨hs1, hs2⟩ := List.pairwise_cons.1 hs
    have hl' : ∀ a ∈ as, left a ≤ right a := fun x hx => hl x (List.mem_cons_of_mem _ hx)
    have hla := hl a List.mem_cons_self
    by_cases h : left a ≥ e
    · obtain ⟨h1, h2, h3, h4, h5⟩ := pass_spec depth as (if left a = right a then right a + 1 else right a) hs2 hl'
      simp only [pass, h, ↓reduceIte]
      generalize pass left right depth (if left a = right a then right a + 1 else right a) as = r at h1 h2 h3 h4 h5
      obtain ⟨placed, unplaced⟩ := r
      dsimp only at h1 h2 h3 h4 h5 ⊢
      refine ⟨by simpa using h1.cons a, h2.cons a, ?_, ?_, ?_⟩
      · intro p hp
        rcases List.mem_cons.1 hp with rfl | hp
        · exact ⟨rfl, List.mem_cons_self, h⟩
        · obtain ⟨e1, e2, e3⟩ := h3 p hp
          refine ⟨e1, List.mem_cons_of_mem _ e2, ?_⟩
          split at e3 <;> omega
      · refine List.pairwise_cons.2 ⟨?_, h4⟩
        intro p hp
        obtain ⟨_, _, e3⟩ := h3 p hp
        dsimp only [Before]
        split at e3
        · exact ⟨by omega, fun _ => by omega⟩
        · exact ⟨e3, fun h => by omega⟩
      · intro x hx
        right
        rcases h5 x hx with h6 | ⟨p, hp, h6⟩
        · refine ⟨⟨a, depth⟩, List.mem_cons_self, hs1 x (h2.subset hx), ?_⟩
          dsimp only [Before]
          rintro ⟨e1, e2⟩
          split at h6
          · have := e2 (by assumption); omega
          · omega
        · exact ⟨p, List.mem_cons_of_mem _ hp, h6⟩
    · obtain ⟨h1, h2, h3, h4, h5⟩ := pass_spec depth as e hs2 hl'
      simp only [pass, h, ↓reduceIte]
      generalize pass left right depth e as = r at h1 h2 h3 h4 h5
      obtain ⟨placed, unplaced⟩ := r
      dsimp only at h1 h2 h3 h4 h5 ⊢
      refine ⟨List.perm_middle.trans (h1.cons a), h2.cons_cons a, ?_, h4, ?_⟩
      · intro p hp
        obtain ⟨e1, e2, e3⟩ := h3 p hp
        exact ⟨e1, List.mem_cons_of_mem _ e2, e3⟩
      · intro x hx
        rcases List.mem_cons.1 hx with rfl | hx
        · left; omega
        · exact h5 x hx

/-- The first arrow is always placed. -/
theorem pass_first (depth : Nat) (q : List α) (h : q ≠ []) : (pass left right depth 0 q).1 ≠ [] := by
  cases q with
  | nil => exact absurd rfl h
  | cons a as => simp [pass]

theorem placeLoop_spec (as : List α) : ∀ (fuel depth : Nat) (unplaced : List α) (placed : List (PlacedArrow α)),
    unplaced.length < fuel → unplaced.Pairwise (fun x y => right y ≤ right x) → (∀ a ∈ unplaced, left a ≤ right a) →
    (placed.map (·.arrow) ++ unplaced).Perm as → (∀ p ∈ placed, p.level < depth) → (∀ l < depth, ∃ p ∈ placed, p.level = l) →
    placed.Pairwise (fun p q => p.level = q.level → Before (left p.arrow) (right p.arrow) (left q.arrow) (right q.arrow)) →
    (∀ q ∈ placed, ∀ l < q.level, ∃ p ∈ placed, p.level = l ∧ right p.arrow ≤ right q.arrow ∧
      ¬ Before (left p.arrow) (right p.arrow) (left q.arrow) (right q.arrow)) →
    (∀ a ∈ unplaced, ∀ l < depth, ∃ p ∈ placed, p.level = l ∧ right p.arrow ≤ right a ∧
      ¬ Before (left p.arrow) (right p.arrow) (left a) (right a)) →
    ∃ r levels, placeLoop left right fuel depth unplaced placed = some (r, levels) ∧ Placement left right as r levels
  | 0, _, _, _, hf, _, _, _, _, _, _, _, _ => by omega
  | fuel + 1, depth, unplaced, placed, hf, hs, hl, h1, h2, h3, h4, h5, h6 => by
    cases hu : unplaced with
    | nil =>
      subst hu
      refine ⟨placed, depth, by simp [placeLoop], ?_⟩
      exact ⟨by simpa using h1, h2, h3, h4, h5⟩
    | cons u us =>
      rw [← hu]
      have hne : unplaced.isEmpty = false := by rw [hu]; rfl
      simp only [placeLoop, hne, Bool.false_eq_true, ↓reduceIte]
      have hs' : unplaced.reverse.Pairwise (fun x y => right x ≤ right y) := List.pairwise_reverse.2 hs
      have hl' : ∀ a ∈ unplaced.reverse, left a ≤ right a := fun a ha => hl a (List.mem_reverse.1 ha)
      obtain ⟨e1, e2, e3, e4, e5⟩ := pass_spec depth unplaced.reverse 0 hs' hl'
      have e6 := pass_first (left := left) (right := right) depth unplaced.reverse (by rw [hu]; simp)
      generalize pass left right depth 0 unplaced.reverse = r at e1 e2 e3 e4 e5 e6
      obtain ⟨now, later⟩ := r
      dsimp only at e1 e2 e3 e4 e5 e6 ⊢
      have hlen : later.length < unplaced.length := by
        have := e1.length_eq
        have h7 : 0 < now.length := List.length_pos_iff.2 e6
        simp at this
        omega
      have hrej : ∀ a ∈ later, ∃ p ∈ now, right p.arrow ≤ right a ∧ ¬ Before (left p.arrow) (right p.arrow) (left a) (right a) := by
        intro a ha
        rcases e5 a ha with h | h
        · omega
        · exact h
      refine placeLoop_spec as fuel (depth + 1) later.reverse (placed ++ now) (by rw [List.length_reverse]; omega)
        (List.pairwise_reverse.2 (hs'.sublist e2)) (fun a ha => hl' a (e2.subset (List.mem_reverse.1 ha))) ?_ ?_ ?_ ?_ ?_ ?_
      · refine List.Perm.trans ?_ h1
        rw [List.map_append, List.append_assoc]
        exact List.Perm.append_left _ (((List.reverse_perm later).append_left _).trans (e1.trans (List.reverse_perm _)))
      · intro p hp
        rcases List.mem_append.1 hp with hp | hp
        · exact Nat.lt_succ_of_lt (h2 p hp)
        · rw [(e3 p hp).1]; exact Nat.lt_succ_self _
      · intro l hlt
        rcases Nat.lt_succ_iff_lt_or_eq.1 hlt with h | rfl
        · obtain ⟨p, hp, h7⟩ := h3 l h
          exact ⟨p, List.mem_append_left _ hp, h7⟩
        · obtain ⟨p, hp⟩ := List.exists_mem_of_ne_nil _ e6
          exact ⟨p, List.mem_append_right _ hp, (e3 p hp).1⟩
      · refine List.pairwise_append.2 ⟨h4, e4.imp (by intro a b h _; exact h), ?_⟩
        intro p hp q hq heq
        have := h2 p hp
        rw [heq, (e3 q hq).1] at this
        omega
      · intro q hq l hlt
        rcases List.mem_append.1 hq with hq | hq
        · obtain ⟨p, hp, h7⟩ := h5 q hq l hlt
          exact ⟨p, List.mem_append_left _ hp, h7⟩
        · obtain ⟨g1, g2, _⟩ := e3 q hq
          rw [g1] at hlt
          obtain ⟨p, hp, h7⟩ := h6 q.arrow (List.mem_reverse.1 g2) l hlt
          exact ⟨p, List.mem_append_left _ hp, h7⟩
      · intro a ha l hlt
        rw [List.mem_reverse] at ha
        rcases Nat.lt_succ_iff_lt_or_eq.1 hlt with h | rfl
        · obtain ⟨p, hp, h7⟩ := h6 a (List.mem_reverse.1 (e2.subset ha)) l h
          exact ⟨p, List.mem_append_left _ hp, h7⟩
        · obtain ⟨p, hp, h7⟩ := hrej a ha
          exact ⟨p, List.mem_append_right _ hp, (e3 p hp).1, h7⟩

theorem placeArrows_spec (as : List α) (hl : ∀ a ∈ as, left a ≤ right a) :
    ∃ r levels, placeArrows left right as = some (r, levels) ∧ Placement left right as r levels := by
  have hp := sortArrows_perm (right := right) as
  refine placeLoop_spec as _ 0 _ [] (by rw [hp.length_eq]; exact Nat.lt_succ_self _) (sortArrows_sorted as)
    (fun a ha => hl a (hp.mem_iff.1 ha)) (by simpa using hp) ?_ ?_ List.Pairwise.nil ?_ ?_
  all_goals simp

end place

/-! ## Grouping -/

/-- The group an arrow belongs to. -/
def Arrow.key (a : Arrow) : Nat × Nat × Direction := (a.left, a.right, a.direction)

/-- The key of a group. -/
def GroupedArrow.key (g : GroupedArrow) : Nat × Nat × Direction := (g.left, g.right, g.direction)

/-- What holds for the entries after the arrows `as`. -/
structure Entries (as : List Arrow) (map : List GroupedArrow) : Prop where
  labels : ∀ g ∈ map, g.labels = (as.filter (fun a => a.key = g.key)).map (·.label) ∧ g.labels ≠ []
  all : ∀ a ∈ as, ∃ g ∈ map, g.key = a.key
  once : map.Pairwise (fun g g' => g.key ≠ g'.key)

theorem addArrow_keys (a : Arrow) (map : List GroupedArrow) :
    (addArrow a map).map (·.key) = if a.key ∈ map.map (·.key) then map.map (·.key) else map.map (·.key) ++ [a.key] := by
  induction map with
  | nil => simp [addArrow, Arrow.key, GroupedArrow.key]
  | cons g gs ih =>
    unfold addArrow
    by_cases h : (g.left, g.right, g.direction) = (a.left, a.right, a.direction)
    · rw [if_pos h]
      have : g.key = a.key := h
      simp only [List.map_cons]
      rw [if_pos (by simp [this])]
      rfl
    · rw [if_neg h]
      have : ¬ a.key = g.key := fun e => h e.symm
      simp only [List.map_cons, ih, List.mem_cons, this, false_or]
      split <;> simp

theorem mem_addArrow {a : Arrow} {map : List GroupedArrow} {g : GroupedArrow} (hn : map.Pairwise (fun g g' => g.key ≠ g'.key))
    (h : g ∈ addArrow a map) :
    (g ∈ map ∧ g.key ≠ a.key) ∨ (g.key = a.key ∧ g.labels = [a.label] ∧ ∀ g' ∈ map, g'.key ≠ a.key) ∨
      ∃ g' ∈ map, g'.key = a.key ∧ g.key = a.key ∧ g.labels = g'.labels ++ [a.label] := by
  induction map with
  | nil =>
    simp only [addArrow, List.mem_singleton] at h
    subst h
    exact Or.inr (Or.inl ⟨rfl, rfl, by simp⟩)
  | cons b bs ih =>
    obtain ⟨h1, h2⟩ := List.pairwise_cons.1 hn
    unfold addArrow at h
    by_cases hk : (b.left, b.right, b.direction) = (a.left, a.right, a.direction)
    · rw [if_pos hk] at h
      have hk' : b.key = a.key := hk
      rcases List.mem_cons.1 h with rfl | h
      · exact Or.inr (Or.inr ⟨b, List.mem_cons_self, hk', hk', rfl⟩)
      · exact Or.inl ⟨List.mem_cons_of_mem _ h, fun e => h1 g h (hk'.trans e.symm)⟩
    · rw [if_neg hk] at h
      have hk' : b.key ≠ a.key := hk
      rcases List.mem_cons.1 h with rfl | h
      · exact Or.inl ⟨List.mem_cons_self, hk'⟩
      · rcases ih h2 h with ⟨e1, e2⟩ | ⟨e1, e2, e3⟩ | ⟨g', e1, e2⟩
        · exact Or.inl ⟨List.mem_cons_of_mem _ e1, e2⟩
        · refine Or.inr (Or.inl ⟨e1, e2, ?_⟩)
          intro g' hg'
          rcases List.mem_cons.1 hg' with rfl | hg'
          · exact hk'
          · exact e3 g' hg'
        · exact Or.inr (Or.inr ⟨g', List.mem_cons_of_mem _ e1, e2⟩)

theorem entries_step {as : List Arrow} {map : List GroupedArrow} (h : Entries as map) (a : Arrow) :
    Entries (as ++ [a]) (addArrow a map) := by
  have hk := addArrow_keys a map
  have memk : ∀ k, k ∈ (addArrow a map).map (·.key) ↔ k ∈ map.map (·.key) ∨ k = a.key := by
    intro k
    rw [hk]
    split
    · rename_i h1
      constructor
      · exact Or.inl
      · rintro (h2 | rfl)
        · exact h2
        · exact h1
    · simp
  refine ⟨?_, ?_, ?_⟩
  · intro g hg
    rw [List.filter_append, List.map_append]
    rcases mem_addArrow h.once hg with ⟨e1, e2⟩ | ⟨e1, e2, e3⟩ | ⟨g', e1, e2, e3, e4⟩
    · obtain ⟨f1, f2⟩ := h.labels g e1
      have : ¬ a.key = g.key := fun e => e2 e.symm
      exact ⟨by simp [f1, this], f2⟩
    · have : as.filter (fun a => a.key = g.key) = [] := by
        rw [List.filter_eq_nil_iff]
        intro b hb
        simp only [decide_eq_true_eq]
        intro hbk
        obtain ⟨g', hg', e⟩ := h.all b hb
        exact e3 g' hg' (by rw [e, hbk, e1])
      rw [this]
      exact ⟨by simp [e1, e2], by rw [e2]; simp⟩
    · obtain ⟨f1, f2⟩ := h.labels g' e1
      rw [e2] at f1
      exact ⟨by simp [e3, e4, f1], by rw [e4]; simp⟩
  · intro b hb
    have : b.key ∈ (addArrow a map).map (·.key) := by
      rw [memk]
      rcases List.mem_append.1 hb with hb | hb
      · obtain ⟨g, hg, e⟩ := h.all b hb
        exact Or.inl (List.mem_map.2 ⟨g, hg, e⟩)
      · rw [List.mem_singleton] at hb
        exact Or.inr (by rw [hb])
    obtain ⟨g, hg, e⟩ := List.mem_map.1 this
    exact ⟨g, hg, e⟩
  · have h1 : (map.map (·.key)).Nodup := List.pairwise_map.2 h.once
    have : ((addArrow a map).map (·.key)).Nodup := by
      rw [hk]
      split
      · exact h1
      · rename_i h2
        rw [List.nodup_append]
        refine ⟨h1, List.nodup_singleton _, ?_⟩
        intro x hx y hy
        rw [List.mem_singleton] at hy
        rintro rfl
        exact h2 (hy ▸ hx)
    exact List.pairwise_map.1 this

theorem entries_fold (as : List Arrow) : ∀ (pre : List Arrow) (map : List GroupedArrow), Entries pre map →
    Entries (pre ++ as) (as.foldl (fun map a => addArrow a map) map) := by
  induction as with
  | nil => intro pre map h; simpa using h
  | cons a as ih =>
    intro pre map h
    have := ih (pre ++ [a]) _ (entries_step h a)
    simpa using this

theorem groupArrows_entries (ord : List GroupedArrow → List GroupedArrow) (ho : ∀ l, (ord l).Perm l) (as : List Arrow) :
    Entries as (groupArrows ord as) := by
  have h : Entries as (as.foldl (fun map a => addArrow a map) []) := by
    simpa using entries_fold as [] [] ⟨by simp, by simp, List.Pairwise.nil⟩
  have hp := ho (as.foldl (fun map a => addArrow a map) [])
  refine ⟨fun g hg => h.labels g (hp.mem_iff.1 hg), fun a ha => ?_, ?_⟩
  · obtain ⟨g, hg, e⟩ := h.all a ha
    exact ⟨g, hp.mem_iff.2 hg, e⟩
  · have : ((groupArrows ord as).map (·.key)).Nodup := (hp.map _).nodup_iff.2 (List.pairwise_map.2 h.once)
    exact List.pairwise_map.1 this

/-! ## The arrows of an automaton -/

/-- A transition: source, target, label. -/
abbrev Trans := Nat × Nat × Str

/-- The arrow of a transition. -/
def arrowOf (t : Trans) : Arrow := Arrow.new t.1 t.2.1 t.2.2

theorem arrowOf_cases (t : Trans) :
    (t.1 < t.2.1 ∧ arrowOf t = ⟨t.1, t.2.1, .right, t.2.2⟩) ∨ (t.1 = t.2.1 ∧ arrowOf t = ⟨t.1, t.2.1, .spot, t.2.2⟩) ∨
      (t.2.1 < t.1 ∧ arrowOf t = ⟨t.2.1, t.1, .left, t.2.2⟩) := by
  unfold arrowOf Arrow.new
  cases h : compare t.1 t.2.1 with
  | lt => exact Or.inl ⟨Nat.compare_eq_lt.1 h, rfl⟩
  | eq => exact Or.inr (Or.inl ⟨Nat.compare_eq_eq.1 h, rfl⟩)
  | gt => exact Or.inr (Or.inr ⟨Nat.compare_eq_gt.1 h, rfl⟩)

theorem arrowOf_label (t : Trans) : (arrowOf t).label = t.2.2 := by
  rcases arrowOf_cases t with ⟨_, h⟩ | ⟨_, h⟩ | ⟨_, h⟩ <;> rw [h]

theorem arrowOf_key {t : Trans} {g : GroupedArrow} (h : g.key = (arrowOf t).key) : g.Oriented ∧ g.source = t.1 ∧ g.target = t.2.1 := by
  obtain ⟨l, r, d, ls⟩ := g
  rcases arrowOf_cases t with ⟨h1, h2⟩ | ⟨h1, h2⟩ | ⟨h1, h2⟩ <;> rw [h2] at h <;>
    (simp only [GroupedArrow.key, Arrow.key, Prod.mk.injEq] at h
     obtain ⟨rfl, rfl, rfl⟩ := h) <;>
    simp [GroupedArrow.Oriented, GroupedArrow.source, GroupedArrow.target, h1]

theorem key_of_ends {g : GroupedArrow} (h : g.Oriented) (t : Trans) (h1 : g.source = t.1) (h2 : g.target = t.2.1) :
    g.key = (arrowOf t).key := by
  obtain ⟨l, r, d, ls⟩ := g
  rcases arrowOf_cases t with ⟨h3, h4⟩ | ⟨h3, h4⟩ | ⟨h3, h4⟩ <;> rw [h4] <;> cases d <;>
    simp_all [GroupedArrow.Oriented, GroupedArrow.source, GroupedArrow.target, GroupedArrow.key, Arrow.key] <;> omega

/-- Grouping the arrows of transitions. -/
theorem groups_of (ord : List GroupedArrow → List GroupedArrow) (ho : ∀ l, (ord l).Perm l) (ts : List Trans) :
    Groups (fun i j => (ts.filter (fun t => t.1 = i ∧ t.2.1 = j)).map (·.2.2)) (groupArrows ord (ts.map arrowOf)) := by
  have he := groupArrows_entries ord ho (ts.map arrowOf)
  have hof : ∀ g ∈ groupArrows ord (ts.map arrowOf), ∃ t ∈ ts, g.key = (arrowOf t).key := by
    intro g hg
    obtain ⟨e1, e2⟩ := he.labels g hg
    rw [e1] at e2
    have : (ts.map arrowOf).filter (fun a => a.key = g.key) ≠ [] := fun h => e2 (by rw [h]; rfl)
    obtain ⟨a, ha⟩ := List.exists_mem_of_ne_nil _ this
    rw [List.mem_filter] at ha
    obtain ⟨t, ht, rfl⟩ := List.mem_map.1 ha.1
    exact ⟨t, ht, (by simpa using ha.2 : (arrowOf t).key = g.key).symm⟩
  refine ⟨?_, ?_, ?_, ?_⟩
  · intro g hg
    obtain ⟨t, _, h⟩ := hof g hg
    exact (arrowOf_key h).1
  · intro g hg
    obtain ⟨t, _, h⟩ := hof g hg
    obtain ⟨h1, h2, h3⟩ := arrowOf_key h
    obtain ⟨e1, e2⟩ := he.labels g hg
    refine ⟨?_, e2⟩
    rw [e1, List.filter_map, List.map_map]
    have e3 : ((fun a => decide (a.key = g.key)) ∘ arrowOf) = fun t => decide (t.1 = g.source ∧ t.2.1 = g.target) := by
      funext x
      simp only [Function.comp_apply, decide_eq_decide]
      constructor
      · intro h4
        obtain ⟨_, h5, h6⟩ := arrowOf_key h4.symm
        exact ⟨h5.symm, h6.symm⟩
      · rintro ⟨h5, h6⟩
        exact (key_of_ends h1 x h5.symm h6.symm).symm
    rw [e3]
    refine List.map_congr_left (fun t _ => arrowOf_label t)
  · intro i j hne
    have : ts.filter (fun t => t.1 = i ∧ t.2.1 = j) ≠ [] := fun h => hne (by rw [h]; rfl)
    obtain ⟨t, ht⟩ := List.exists_mem_of_ne_nil _ this
    rw [List.mem_filter] at ht
    obtain ⟨h1, h2⟩ : t.1 = i ∧ t.2.1 = j := by simpa using ht.2
    obtain ⟨g, hg, e⟩ := he.all (arrowOf t) (List.mem_map.2 ⟨t, ht.1, rfl⟩)
    obtain ⟨_, h3, h4⟩ := arrowOf_key e
    exact ⟨g, hg, h3.trans h1, h4.trans h2⟩
  · refine he.once.imp_of_mem ?_
    rintro g g' hg hg' hk ⟨h1, h2⟩
    obtain ⟨t, _, h⟩ := hof g hg
    obtain ⟨t', _, h'⟩ := hof g' hg'
    obtain ⟨o1, _, _⟩ := arrowOf_key h
    obtain ⟨_, s2, s3⟩ := arrowOf_key h'
    exact hk ((key_of_ends o1 t' (h1.trans s2) (h2.trans s3)).trans h'.symm)

/-- The transitions of all states; `f` gives targets and labels of a state. -/
def transOf {σ : Type} (f : σ → List (Nat × Str)) (states : List σ) (k : Nat) : List Trans :=
  ((states.zipIdx k).map (fun x => (f x.1).map (fun y => (x.2, y)))).flatten

/-- Targets and labels of a DFA state. -/
def dfaOut (alphabet : List Str) (s : DfaState) : List (Nat × Str) := (alphabet.zip s.transitions).map (fun y => (y.2, y.1))

/-- Targets and labels of an NFA state. -/
def nfaOut (alphabet : List Str) (s : NfaState) : List (Nat × Str) :=
  (alphabet.zip s.transitions).flatMap (fun y => y.2.map (fun t => (t, y.1))) ++ s.epsilonTransitions.map (fun t => (t, c!"ε"))

theorem transOf_filter {σ : Type} (f : σ → List (Nat × Str)) (i j : Nat) : ∀ (states : List σ) (k : Nat),
    ((transOf f states k).filter (fun t => t.1 = i ∧ t.2.1 = j)).map (·.2.2) =
      if k ≤ i then (match states[i - k]? with
        | none => []
        | some s => ((f s).filter (fun y => y.1 = j)).map (·.2))
      else []
  | [], k => by simp [transOf]
  | s :: states, k => by
    have ih := transOf_filter f i j states (k + 1)
    have e : transOf f (s :: states) k = (f s).map (fun y => (k, y)) ++ transOf f states (k + 1) := by
      simp [transOf, List.zipIdx_cons]
    rw [e, List.filter_append, List.map_append, ih]
    by_cases h : k = i
    · subst h
      have h1 : ¬ (k + 1 ≤ k) := by omega
      simp only [h1, ↓reduceIte, List.append_nil, Nat.le_refl, Nat.sub_self, List.getElem?_cons_zero, List.filter_map, List.map_map]
      congr 1
      refine List.filter_congr (fun y _ => ?_)
      simp
    · have h0 : ((f s).map (fun y => (k, y))).filter (fun t : Trans => decide (t.1 = i ∧ t.2.1 = j)) = [] := by
        rw [List.filter_eq_nil_iff]
        intro t ht
        obtain ⟨y, _, rfl⟩ := List.mem_map.1 ht
        simp [h]
      rw [h0]
      by_cases h2 : k ≤ i
      · have h3 : k + 1 ≤ i := by omega
        obtain ⟨m, hm⟩ : ∃ m, i - k = m + 1 := ⟨i - k - 1, by omega⟩
        have hm' : i - (k + 1) = m := by omega
        simp only [h2, h3, ↓reduceIte, hm, hm', List.getElem?_cons_succ, List.map_nil, List.nil_append]
      · have h3 : ¬ (k + 1 ≤ i) := by omega
        simp [h2, h3]

theorem dfaTrans_labels (d : Dfa) (i j : Nat) :
    ((transOf (dfaOut d.alphabet) d.states 0).filter (fun t => t.1 = i ∧ t.2.1 = j)).map (·.2.2) = dfaLabels d i j := by
  rw [transOf_filter]
  simp only [Nat.zero_le, ↓reduceIte, Nat.sub_zero, dfaLabels]
  cases d.states[i]? with
  | none => rfl
  | some s =>
    simp only [dfaOut, List.filter_map, List.map_map]
    rfl

theorem filter_targets (e : Str) (j : Nat) (tos : List Nat) :
    ((tos.map (fun t => (t, e))).filter (fun y => decide (y.1 = j))).map (·.2) = List.replicate (tos.count j) e := by
  induction tos with
  | nil => rfl
  | cons t tos ih =>
    by_cases h : t = j
    · subst h
      simp only [List.map_cons, List.filter_cons, decide_true, ↓reduceIte, ih, List.count_cons_self, List.replicate_succ]
    · simp only [List.map_cons, List.filter_cons, h, decide_false, Bool.false_eq_true, ↓reduceIte, ih]
      rw [List.count_cons_of_ne h]

theorem nfaTrans_labels (n : Nfa) (i j : Nat) :
    ((transOf (nfaOut n.alphabet) n.states 0).filter (fun t => t.1 = i ∧ t.2.1 = j)).map (·.2.2) = nfaLabels n i j := by
  rw [transOf_filter]
  simp only [Nat.zero_le, ↓reduceIte, Nat.sub_zero, nfaLabels]
  cases n.states[i]? with
  | none => rfl
  | some s =>
    dsimp only
    rw [nfaOut, List.filter_append, List.map_append, filter_targets, List.filter_flatMap, List.map_flatMap]
    simp only [filter_targets]

theorem mapM_eq_some {α β : Type} {f : α → Option β} {g : α → β} (l : List α) (h : ∀ a ∈ l, f a = some (g a)) :
    l.mapM f = some (l.map g) := by
  induction l with
  | nil => rfl
  | cons a l ih =>
    rw [List.mapM_cons, h a List.mem_cons_self, ih (fun b hb => h b (List.mem_cons_of_mem _ hb))]
    rfl

theorem zipIdx_alphabet {β γ : Type} (F : Option Str → β → Option γ) (f : Str → β → γ) (hF : ∀ e b, F (some e) b = some (f e b)) :
    ∀ (alphabet : List Str) (row : List β) (k : Nat) (pre : List Str), pre.length = k → row.length ≤ alphabet.length →
    (row.zipIdx k).mapM (fun x => F (pre ++ alphabet)[x.2]? x.1) = some ((alphabet.zip row).map (fun y => f y.1 y.2))
  | _, [], _, _, _, _ => by simp
  | [], b :: row, _, _, _, h => by simp at h
  | e :: alphabet, b :: row, k, pre, hk, h => by
    have ih := zipIdx_alphabet F f hF alphabet row (k + 1) (pre ++ [e]) (by simp [hk]) (by simpa using h)
    rw [List.append_assoc] at ih
    simp only [List.zipIdx_cons, List.mapM_cons]
    have : (pre ++ e :: alphabet)[k]? = some e := by rw [List.getElem?_append_right (by omega)]; simp [hk]
    rw [this, hF]
    simp only [List.singleton_append] at ih
    simp only [ih]
    rfl

theorem mem_zipIdx_state {σ : Type} {l : List σ} {x : σ × Nat} (hx : x ∈ l.zipIdx) : x.1 ∈ l := by
  obtain ⟨i, hi⟩ := List.mem_iff_getElem?.1 hx
  rw [List.getElem?_zipIdx] at hi
  cases hs : l[i]? with
  | none => rw [hs] at hi; cases hi
  | some s => rw [hs] at hi; cases hi; exact List.mem_of_getElem? hs

theorem dfaToArrows_eq {d : Dfa} (h : d.WF) : dfaToArrows d = some ((transOf (dfaOut d.alphabet) d.states 0).map arrowOf) := by
  unfold dfaToArrows transOf
  rw [mapM_eq_some (g := fun x => (dfaOut d.alphabet x.1).map (fun y => arrowOf (x.2, y)))]
  · simp only [Option.map_some, List.map_flatten, List.map_map]
    congr 3
    funext x
    simp
  · intro x hx
    have := zipIdx_alphabet (fun e t => e.map (Arrow.new x.2 t)) (fun e t => Arrow.new x.2 t e) (fun _ _ => rfl) d.alphabet
      x.1.transitions 0 [] rfl (le_of_eq (h.row_len _ (mem_zipIdx_state hx)))
    simp only [List.nil_append] at this
    simp only [stateArrows, this, dfaOut, List.map_map]
    rfl

theorem nfaToArrows_eq {n : Nfa} (h : n.WF) : nfaToArrows n = some ((transOf (nfaOut n.alphabet) n.states 0).map arrowOf) := by
  unfold nfaToArrows transOf
  rw [mapM_eq_some (g := fun x => (nfaOut n.alphabet x.1).map (fun y => arrowOf (x.2, y)))]
  · simp only [Option.map_some, List.map_flatten, List.map_map]
    congr 3
    funext x
    simp
  · intro x hx
    have := zipIdx_alphabet (fun e ts => ts.mapM (fun t => e.map (Arrow.new x.2 t))) (fun e ts => ts.map (fun t => Arrow.new x.2 t e))
      (fun e ts => mapM_eq_some ts (fun t _ => rfl)) n.alphabet
      x.1.transitions 0 [] rfl (le_of_eq (h.row_len _ (mem_zipIdx_state hx)))
    simp only [List.nil_append] at this
    simp only [nfaStateArrows, elemArrows, this, nfaOut, List.map_append, List.map_map, List.map_flatMap]
    simp only [Option.bind_eq_bind, Option.bind_some, List.flatMap]
    rfl

theorem dfa_groups (ord : List GroupedArrow → List GroupedArrow) (ho : ∀ l, (ord l).Perm l) {d : Dfa} (h : d.WF) :
    ∃ as, dfaToArrows d = some as ∧ Groups (dfaLabels d) (groupArrows ord as) := by
  refine ⟨_, dfaToArrows_eq h, ?_⟩
  have := groups_of ord ho (transOf (dfaOut d.alphabet) d.states 0)
  simp only [dfaTrans_labels] at this
  exact this

theorem nfa_groups (ord : List GroupedArrow → List GroupedArrow) (ho : ∀ l, (ord l).Perm l) {n : Nfa} (h : n.WF) :
    ∃ as, nfaToArrows n = some as ∧ Groups (nfaLabels n) (groupArrows ord as) := by
  refine ⟨_, nfaToArrows_eq h, ?_⟩
  have := groups_of ord ho (transOf (nfaOut n.alphabet) n.states 0)
  simp only [nfaTrans_labels] at this
  exact this

end Draw
end Dandy
