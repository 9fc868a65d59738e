import Verif.Model.Cli
import Mathlib.Data.List.Induction
import Mathlib.Tactic.Tauto
/-! # Lemmas about `last_n_components` -/

namespace Dandy
namespace Cli

/-- Texts joined by slashes. -/
def joinSlash (ps : List Str) : Str := List.intercalate ['/'] ps

theorem joinSlash_cons (p q : Str) (ps : List Str) : joinSlash (p :: q :: ps) = p ++ '/' :: joinSlash (q :: ps) := by
  simp [joinSlash, List.intercalate]

theorem joinSlash_one (p : Str) : joinSlash [p] = p := by simp [joinSlash, List.intercalate]

theorem splitSlash_append {p rest : Str} (h : '/' ∉ p) : splitSlash (p ++ '/' :: rest) = p :: splitSlash rest := by
  induction p with
  | nil => simp [splitSlash]
  | cons c p ih =>
    simp only [List.mem_cons, not_or] at h
    simp only [List.cons_append, splitSlash, ih h.2, if_neg (Ne.symm h.1)]

theorem splitSlash_none {p : Str} (h : '/' ∉ p) : splitSlash p = [p] := by
  induction p with
  | nil => rfl
  | cons c p ih =>
    simp only [List.mem_cons, not_or] at h
    simp only [splitSlash, ih h.2, if_neg (Ne.symm h.1)]

theorem splitSlash_join {ps : List Str} (hne : ps ≠ []) (h : ∀ p ∈ ps, '/' ∉ p) : splitSlash (joinSlash ps) = ps := by
  induction ps with
  | nil => exact absurd rfl hne
  | cons p ps ih =>
    cases ps with
    | nil => rw [joinSlash_one]; exact splitSlash_none (h p (by simp))
    | cons q ps =>
      rw [joinSlash_cons, splitSlash_append (h p (by simp)), ih (by simp) (fun x hx => h x (by simp [hx]))]

/-- A piece that is a component. -/
def IsName (p : Str) : Prop := p ≠ [] ∧ p ≠ ['.'] ∧ '/' ∉ p

/-- The component of a name. -/
def nameComp (p : Str) : Comp := if p = ['.', '.'] then .parentDir else .normal p

theorem nameComp_str (p : Str) : (nameComp p).str = p := by
  unfold nameComp
  split
  · rename_i h; rw [h]; rfl
  · rfl

theorem piece_name {p : Str} (h : p ≠ [] ∧ p ≠ ['.']) : piece p = some (nameComp p) := by
  unfold piece nameComp
  rw [if_neg (by tauto)]
  split <;> rfl

theorem filterMap_piece (ps : List Str) :
    ps.filterMap piece = (ps.filter (fun p => decide (p ≠ [] ∧ p ≠ ['.']))).map nameComp := by
  induction ps with
  | nil => rfl
  | cons p ps ih =>
    by_cases h : p ≠ [] ∧ p ≠ ['.']
    · rw [List.filterMap_cons, piece_name h, List.filter_cons_of_pos (by simpa using h), List.map_cons]
      dsimp only
      rw [ih]
    · rw [List.filterMap_cons, List.filter_cons_of_neg (by simpa using h)]
      have : piece p = none := by unfold piece; rw [if_pos (by tauto)]
      rw [this]
      exact ih

theorem head_slash {p : Str} (h : '/' ∉ p) : p.head? ≠ some '/' := by
  intro h'
  cases p with
  | nil => simp at h'
  | cons c p => simp at h'; subst h'; simp at h

theorem last_slash {p : Str} (h : '/' ∉ p) : p.getLast? ≠ some '/' := fun h' => h (List.mem_of_getLast? h')

theorem joinSlash_head {p : Str} {ps : List Str} (hp : p ≠ []) : (joinSlash (p :: ps)).head? = p.head? := by
  cases ps with
  | nil => rw [joinSlash_one]
  | cons q ps => rw [joinSlash_cons]; cases p with
    | nil => exact absurd rfl hp
    | cons c p => rfl

theorem joinSlash_append_one {ps : List Str} (hne : ps ≠ []) (p : Str) : joinSlash (ps ++ [p]) = joinSlash ps ++ '/' :: p := by
  induction ps with
  | nil => exact absurd rfl hne
  | cons q ps ih =>
    cases ps with
    | nil => simp [joinSlash_cons, joinSlash_one]
    | cons q' ps =>
      have e : (q :: q' :: ps) ++ [p] = q :: q' :: (ps ++ [p]) := rfl
      rw [e, joinSlash_cons, joinSlash_cons]
      have := ih (by simp)
      rw [List.cons_append] at this
      rw [this]
      simp

theorem joinSlash_last {ps : List Str} (hne : ps ≠ []) (h : ∀ p ∈ ps, p ≠ [] ∧ '/' ∉ p) : joinSlash ps ≠ [] ∧ (joinSlash ps).getLast? ≠ some '/' := by
  induction ps using List.reverseRecOn with
  | nil => exact absurd rfl hne
  | append_singleton ps p _ =>
    have hp := h p (by simp)
    by_cases h0 : ps = []
    · subst h0
      simp only [List.nil_append, joinSlash_one]
      exact ⟨hp.1, last_slash hp.2⟩
    · rw [joinSlash_append_one h0]
      refine ⟨by simp, ?_⟩
      obtain ⟨a, p', rfl⟩ := List.exists_cons_of_ne_nil hp.1
      rw [List.getLast?_append, List.getLast?_cons_cons]
      rw [Option.or_of_isSome (by simp)]
      exact last_slash hp.2

/-- Pushing names gives the joined text. -/
theorem collect_append {ps : List Str} (h : ∀ p ∈ ps, p ≠ [] ∧ '/' ∉ p) (cs : List Comp) (hcs : cs.map Comp.str = ps) :
    collectPath cs = joinSlash ps := by
  subst hcs
  induction cs using List.reverseRecOn with
  | nil => rfl
  | append_singleton cs c ih =>
    have hc := h c.str (by simp)
    have ih := ih (fun p hp => h p (by rw [List.map_append]; exact List.mem_append_left _ hp))
    unfold collectPath at ih ⊢
    rw [List.foldl_append, ih]
    simp only [List.foldl_cons, List.foldl_nil, List.map_append, List.map_cons, List.map_nil]
    unfold pathPush
    rw [if_neg (head_slash hc.2)]
    by_cases h0 : cs = []
    · subst h0
      rw [List.map_nil, if_pos (by simp [joinSlash, List.intercalate])]
      simp [joinSlash_one]; simp [joinSlash, List.intercalate]
    · have hl := joinSlash_last (ps := cs.map Comp.str) (by simpa using h0)
        (fun p hp => h p (by rw [List.map_append]; exact List.mem_append_left _ hp))
      rw [if_neg (by tauto), joinSlash_append_one (by simpa using h0)]

theorem collect_names {ps : List Str} (h : ∀ p ∈ ps, IsName p) : collectPath (ps.map nameComp) = joinSlash ps :=
  collect_append (fun p hp => ⟨(h p hp).1, (h p hp).2.2⟩) _ (by simp [Function.comp_def, nameComp_str])

theorem filter_names {ps : List Str} (h : ∀ p ∈ ps, IsName p) : ps.filter (fun p => decide (p ≠ [] ∧ p ≠ ['.'])) = ps := by
  rw [List.filter_eq_self]
  intro p hp
  simpa using ⟨(h p hp).1, (h p hp).2.1⟩

theorem components_names {ps : List Str} (h : ∀ p ∈ ps, IsName p) : components (joinSlash ps) = ps.map nameComp := by
  cases ps with
  | nil => decide
  | cons p ps =>
    unfold components
    rw [joinSlash_head (h p (by simp)).1, if_neg (head_slash (h p (by simp)).2.2), splitSlash_join (by simp) (fun q hq => (h q hq).2.2)]
    split
    · rename_i heq
      cases heq
      exact absurd rfl (h ['.'] (by simp)).2.1
    · rw [filterMap_piece, filter_names h]

/-- The names of a path. -/
def namesOfPieces (ps : List Str) : List Str := ps.filter (fun p => decide (p ≠ [] ∧ p ≠ ['.']))

theorem isName_of_pieces {ps : List Str} (h : ∀ p ∈ ps, '/' ∉ p) : ∀ p ∈ namesOfPieces ps, IsName p := by
  intro p hp
  simp only [namesOfPieces, List.mem_filter, decide_eq_true_eq] at hp
  exact ⟨hp.2.1, hp.2.2, h p hp.1⟩

theorem joinSlash_starts {ps : List Str} (hne : ps ≠ []) (h : ∀ p ∈ ps, '/' ∉ p) :
    (joinSlash ps).head? = some '/' ↔ ∃ q qs, ps = [] :: q :: qs := by
  cases ps with
  | nil => exact absurd rfl hne
  | cons p ps =>
    by_cases hp : p = []
    · subst hp
      cases ps with
      | nil => rw [joinSlash_one]; simp
      | cons q qs => rw [joinSlash_cons]; simp
    · rw [joinSlash_head hp]
      constructor
      · intro h'; exact absurd h' (head_slash (h p (by simp)))
      · rintro ⟨q, qs, h'⟩; cases h'; exact absurd rfl hp

theorem components_pieces {ps : List Str} (hne : ps ≠ []) (h : ∀ p ∈ ps, '/' ∉ p) :
    components (joinSlash ps) = (if (joinSlash ps).head? = some '/' then [Comp.rootDir] else
      if ps.head? = some ['.'] then [Comp.curDir] else []) ++ (namesOfPieces ps).map nameComp := by
  unfold components
  rw [splitSlash_join hne h]
  split
  · rw [filterMap_piece]; rfl
  · split
    · rename_i ps
      rw [filterMap_piece]
      simp [namesOfPieces]
    · rename_i h1 h2
      rw [filterMap_piece, if_neg]
      · rfl
      · intro hh
        cases ps with
        | nil => exact hne rfl
        | cons p ps => simp at hh; subst hh; exact h2 ps rfl

theorem collect_root (cs : List Comp) : collectPath (cs ++ [.rootDir]) = ['/'] := by
  simp [collectPath, pathPush, Comp.str]

theorem lastN_some {path : Str} {n : Nat} (h : n ≠ 0) : lastNComponents path (some n) =
    some (collectPath (components (collectPath ((components path).reverse.take n))).reverse) := by
  simp [lastNComponents, h]

theorem lastN_names {names : List Str} (h : ∀ p ∈ names, IsName p) :
    collectPath (components (collectPath (names.map nameComp).reverse)).reverse = joinSlash names := by
  have hr : ∀ p ∈ names.reverse, IsName p := fun p hp => h p (List.mem_reverse.1 hp)
  rw [← List.map_reverse, collect_names hr, components_names hr, ← List.map_reverse, List.reverse_reverse, collect_names h]

theorem lastN_few {ps : List Str} (hne : ps ≠ []) (h : ∀ p ∈ ps, '/' ∉ p) {n : Nat} (h0 : 0 < n)
    (hn : n ≤ (namesOfPieces ps).length) :
    lastNComponents (joinSlash ps) (some n) = some (joinSlash ((namesOfPieces ps).drop ((namesOfPieces ps).length - n))) := by
  rw [lastN_some (by omega), components_pieces hne h]
  rw [List.reverse_append, List.take_append_of_le_length (by simpa using hn), List.take_reverse]
  have hnm := isName_of_pieces h
  rw [List.length_map, ← List.map_drop]
  rw [lastN_names (fun p hp => hnm p (List.mem_of_mem_drop hp))]

theorem lastN_absolute {ps : List Str} (hne : ps ≠ []) (h : ∀ p ∈ ps, '/' ∉ p) {n : Nat}
    (hn : (namesOfPieces ps).length < n) (ha : (joinSlash ps).head? = some '/') :
    lastNComponents (joinSlash ps) (some n) = some ['/'] := by
  rw [lastN_some (by omega), components_pieces hne h, if_pos ha]
  rw [List.reverse_append, List.take_of_length_le (by simp; omega)]
  rw [List.reverse_singleton, collect_root]
  decide

theorem namesOfPieces_append (ps qs : List Str) : namesOfPieces (ps ++ qs) = namesOfPieces ps ++ namesOfPieces qs := by
  simp [namesOfPieces]

theorem lastN_relative {ps : List Str} (hne : ps ≠ []) (h : ∀ p ∈ ps, '/' ∉ p) {n : Nat}
    (hn : (namesOfPieces ps).length < n) (ha : (joinSlash ps).head? ≠ some '/') :
    lastNComponents (joinSlash ps) (some n) =
      some (if namesOfPieces ps = [] ∧ ps.head? = some ['.'] then ['.'] else joinSlash (namesOfPieces ps)) := by
  have hnm := isName_of_pieces h
  rw [lastN_some (by omega), components_pieces hne h, if_neg ha]
  rw [List.reverse_append, List.take_of_length_le (by split <;> simp <;> omega)]
  by_cases hc : ps.head? = some ['.']
  · rw [if_pos hc, List.reverse_singleton]
    by_cases h0 : namesOfPieces ps = []
    · rw [if_pos ⟨h0, hc⟩, h0]
      decide
    · rw [if_neg (by tauto)]
      have hr : ∀ p ∈ (namesOfPieces ps).reverse, IsName p := fun p hp => hnm p (List.mem_reverse.1 hp)
      have e1 : collectPath (((namesOfPieces ps).map nameComp).reverse ++ [Comp.curDir]) =
          joinSlash ((namesOfPieces ps).reverse ++ [['.']]) := by
        apply collect_append
        · intro p hp
          rcases List.mem_append.1 hp with hp | hp
          · exact ⟨(hr p hp).1, (hr p hp).2.2⟩
          · rw [List.mem_singleton.1 hp]; simp
        · rw [← List.map_reverse]
          rw [List.map_append, List.map_map]
          have : Comp.str ∘ nameComp = id := funext nameComp_str
          rw [this]; simp [Comp.str]
      rw [e1]
      have hne' : (namesOfPieces ps).reverse ++ [['.']] ≠ [] := by simp
      have hns : ∀ p ∈ (namesOfPieces ps).reverse ++ [['.']], '/' ∉ p := by
        intro p hp
        rcases List.mem_append.1 hp with hp | hp
        · exact (hr p hp).2.2
        · rw [List.mem_singleton.1 hp]; simp
      obtain ⟨a, as, has⟩ := List.exists_cons_of_ne_nil (show (namesOfPieces ps).reverse ≠ [] by simpa using h0)
      have ha1 : IsName a := hr a (by rw [has]; simp)
      rw [components_pieces hne' hns, if_neg, if_neg, List.nil_append, namesOfPieces_append]
      · have e2 : namesOfPieces (namesOfPieces ps).reverse = (namesOfPieces ps).reverse := filter_names hr
        have e3 : namesOfPieces [['.']] = [] := by decide
        rw [e2, e3, List.append_nil, ← List.map_reverse, List.reverse_reverse, collect_names hnm]
      · rw [has]; simp only [List.cons_append, List.head?_cons, Option.some.injEq]; exact ha1.2.1
      · rw [has, List.cons_append, joinSlash_head ha1.1]; exact head_slash ha1.2.2
  · rw [if_neg hc, if_neg (by tauto), List.reverse_nil, List.append_nil, lastN_names hnm]

end Cli
end Dandy
