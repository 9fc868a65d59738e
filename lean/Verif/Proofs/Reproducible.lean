import Verif.Spec.Reproducible
import Verif.Proofs.Remove
import Verif.Proofs.NfaProduct
import Verif.Proofs.NfaEps
import Mathlib.Data.List.Sort
/-! # Iteration orders of hash sets: lemmas -/

namespace Dandy

theorem insertionSort_perm {a b : List Nat} (h : a.Perm b) : a.insertionSort (· ≤ ·) = b.insertionSort (· ≤ ·) := by
  apply List.Perm.eq_of_pairwise (le := (· ≤ ·)) (fun _ _ _ _ h1 h2 => Nat.le_antisymm h1 h2)
    (List.pairwise_insertionSort _ _) (List.pairwise_insertionSort _ _)
  exact ((List.perm_insertionSort _ a).trans h).trans (List.perm_insertionSort _ b).symm

theorem Dfa.removeStates_perm {d : Dfa} {a b : List Nat} (h : a.Perm b) : d.removeStates a = d.removeStates b := by
  unfold Dfa.removeStates; rw [insertionSort_perm h]

theorem Nfa.removeStates_perm {n : Nfa} {a b : List Nat} (h : a.Perm b) : n.removeStates a = n.removeStates b := by
  unfold Nfa.removeStates; rw [insertionSort_perm h]

/-! ## Names of pairs -/

theorem append_comma_inj {a a' b b' : Str} (ha : ',' ∉ a) (ha' : ',' ∉ a') (h : a ++ ',' :: b = a' ++ ',' :: b') :
    a = a' ∧ b = b' := by
  induction a generalizing a' with
  | nil =>
    cases a' with
    | nil => simpa using h
    | cons c a' =>
      simp only [List.nil_append, List.cons_append, List.cons.injEq] at h
      exact absurd (h.1 ▸ List.mem_cons_self) ha'
  | cons c a ih =>
    cases a' with
    | nil =>
      simp only [List.nil_append, List.cons_append, List.cons.injEq] at h
      exact absurd (h.1 ▸ List.mem_cons_self) ha
    | cons c' a' =>
      simp only [List.cons_append, List.cons.injEq] at h
      obtain ⟨rfl, h⟩ := h
      obtain ⟨rfl, rfl⟩ := ih (fun h => ha (List.mem_cons_of_mem _ h)) (fun h => ha' (List.mem_cons_of_mem _ h)) h
      exact ⟨rfl, rfl⟩

theorem pairName_inj {a a' b b' : Str} (h : Dfa.pairName a b = Dfa.pairName a' b')
    (hc : (',' ∉ a ∧ ',' ∉ a') ∨ (',' ∉ b ∧ ',' ∉ b')) : a = a' ∧ b = b' := by
  have h1 : a ++ ',' :: b = a' ++ ',' :: b' := by
    have : (a ++ ',' :: b) ++ [')'] = (a' ++ ',' :: b') ++ [')'] := by
      simpa [Dfa.pairName] using h
    exact List.append_cancel_right this
  rcases hc with ⟨h2, h3⟩ | ⟨h2, h3⟩
  · exact append_comma_inj h2 h3 h1
  · have h4 := congrArg List.reverse h1
    simp only [List.reverse_append, List.reverse_cons, List.append_assoc, List.singleton_append] at h4
    obtain ⟨h5, h6⟩ := append_comma_inj (by simpa using h2) (by simpa using h3) h4
    exact ⟨List.reverse_injective h6, List.reverse_injective h5⟩

/-! ## The same sets -/

theorem foldl_sextend_perm {α : Type} (f g : α → List Nat) {l m : List α} {s : List Nat}
    (hs : s.Pairwise (· < ·)) (hl : ∀ x, x ∈ l ↔ x ∈ m) (hfg : ∀ x ∈ l, ∀ y, y ∈ f x ↔ y ∈ g x) :
    l.foldl (fun set t => sextend set (f t)) s = m.foldl (fun set t => sextend set (g t)) s := by
  have hsorted : ∀ (f : α → List Nat) (l : List α) (s : List Nat), s.Pairwise (· < ·) →
      (l.foldl (fun set t => sextend set (f t)) s).Pairwise (· < ·) := by
    intro f l
    induction l with
    | nil => intro s h; exact h
    | cons a l ih => intro s h; exact ih _ (sorted_sextend h)
  apply sorted_ext (hsorted f l s hs) (hsorted g m s hs)
  intro x
  rw [Nfa.mem_foldl_sextend, Nfa.mem_foldl_sextend]
  constructor
  · rintro (h | ⟨t, h1, h2⟩)
    · exact Or.inl h
    · exact Or.inr ⟨t, (hl t).1 h1, (hfg t h1 x).1 h2⟩
  · rintro (h | ⟨t, h1, h2⟩)
    · exact Or.inl h
    · exact Or.inr ⟨t, (hl t).2 h1, (hfg t ((hl t).2 h1) x).2 h2⟩

namespace NfaState.SameButOrder
variable {s t : NfaState}

theorem refl (s : NfaState) : s.SameButOrder s :=
  ⟨rfl, rfl, rfl, .rfl, List.forall₂_same.2 fun _ _ => .rfl⟩

theorem all_iff (h : s.SameButOrder t) (D : List Nat) :
    s.transitions.all (fun ts => ts.all (· ∈ D)) = t.transitions.all (fun ts => ts.all (· ∈ D)) := by
  have h5 := h.2.2.2.2
  generalize s.transitions = a at h5
  generalize t.transitions = b at h5
  induction h5 with
  | nil => rfl
  | cons h _ ih => rw [List.all_cons, List.all_cons, ih, h.all_eq]

theorem isDead (h : s.SameButOrder t) (D : List Nat) (i : Nat) : Nfa.isDead D i s = Nfa.isDead D i t := by
  unfold Nfa.isDead
  rw [h.all_iff, h.2.1, h.2.2.1]

theorem getD (h : s.SameButOrder t) (c : Nat) : (s.transitions.getD c []).Perm (t.transitions.getD c []) := by
  have h5 := h.2.2.2.2
  generalize s.transitions = a at h5
  generalize t.transitions = b at h5
  induction h5 generalizing c with
  | nil => exact .rfl
  | cons h _ ih =>
    cases c with
    | zero => exact h
    | succ c => exact ih c

end NfaState.SameButOrder

abbrev SameL := List.Forall₂ NfaState.SameButOrder

namespace SameL
variable {a b : List NfaState}

theorem length (h : SameL a b) : a.length = b.length := List.Forall₂.length_eq h

theorem getD (h : SameL a b) (i : Nat) : (a.getD i default).SameButOrder (b.getD i default) := by
  induction h generalizing i with
  | nil => exact .refl _
  | cons h _ ih =>
    cases i with
    | zero => exact h
    | succ i => exact ih i

theorem deadPass (h : SameL a b) (k : Nat) (D : List Nat) :
    Nfa.deadPass (a.zipIdx k) D = Nfa.deadPass (b.zipIdx k) D := by
  induction h generalizing k D with
  | nil => rfl
  | cons h _ ih =>
    rw [List.zipIdx_cons, List.zipIdx_cons, Nfa.deadPass, Nfa.deadPass, h.isDead, ih]

theorem deadLoop (h : SameL a b) (k : Nat) (D : List Nat) : Nfa.deadLoop a k D = Nfa.deadLoop b k D := by
  induction k generalizing D with
  | zero => rfl
  | succ k ih => simp only [Nfa.deadLoop]; rw [h.deadPass, ih]

theorem names (h : SameL a b) : a.map (·.name) = b.map (·.name) := by
  induction h with
  | nil => rfl
  | cons h _ ih => rw [List.map_cons, List.map_cons, h.1, ih]

theorem modify_initial (h : SameL a b) (i : Nat) :
    SameL (a.modify i (fun s => { s with initial := false })) (b.modify i (fun s => { s with initial := false })) := by
  induction h generalizing i with
  | nil => cases i <;> exact .nil
  | cons h h' ih =>
    cases i with
    | zero => exact .cons ⟨h.1, rfl, h.2.2⟩ h'
    | succ i => exact .cons h (ih i)

theorem noDead (h : SameL a b) (D : List Nat) :
    SameL (a.map (fun s => { s with transitions := s.transitions.map (fun ts => ts.filter (· ∉ D)) }))
      (b.map (fun s => { s with transitions := s.transitions.map (fun ts => ts.filter (· ∉ D)) })) := by
  induction h with
  | nil => exact .nil
  | cons h _ ih =>
    refine .cons ⟨h.1, h.2.1, h.2.2.1, h.2.2.2.1, ?_⟩ ih
    dsimp only
    exact List.forall₂_map_left_iff.2 (List.forall₂_map_right_iff.2 (h.2.2.2.2.imp fun _ _ hp => hp.filter _))

end SameL

theorem mapM_perm {f : Nat → Option Nat} {l m : List Nat} (h : l.Perm m) :
    (l.mapM f = none ∧ m.mapM f = none) ∨ ∃ x y, l.mapM f = some x ∧ m.mapM f = some y ∧ x.Perm y := by
  by_cases hs : ∀ q ∈ l, ∃ v, f q = some v
  · choose! g hg using hs
    exact Or.inr ⟨l.map g, m.map g, mapM_some hg, mapM_some (fun q hq => hg q (h.mem_iff.2 hq)), h.map g⟩
  · left
    push Not at hs
    obtain ⟨q, hq, hv⟩ := hs
    have key : ∀ l : List Nat, q ∈ l → l.mapM f = none := by
      intro l hl
      rcases hr : l.mapM f with _ | r
      · rfl
      · exfalso
        have h2 := mapM_some_iff.1 hr
        clear hr
        induction h2 with
        | nil => simp at hl
        | cons h3 _ ih =>
          rcases List.mem_cons.1 hl with rfl | hl
          · exact hv _ h3
          · exact ih hl
    exact ⟨key l hq, key m (h.mem_iff.1 hq)⟩

theorem mapM_rows {f : Nat → Option Nat} {l m : List (List Nat)} (h : List.Forall₂ List.Perm l m) :
    (l.mapM (fun ts => ts.mapM f) = none ∧ m.mapM (fun ts => ts.mapM f) = none) ∨
    ∃ x y, l.mapM (fun ts => ts.mapM f) = some x ∧ m.mapM (fun ts => ts.mapM f) = some y ∧ List.Forall₂ List.Perm x y := by
  induction h with
  | nil => exact Or.inr ⟨[], [], by simp, by simp, .nil⟩
  | cons h1 _ ih =>
    rw [List.mapM_cons, List.mapM_cons]
    rcases mapM_perm (f := f) h1 with ⟨e1, e2⟩ | ⟨x, y, e1, e2, e3⟩
    · rw [e1, e2]; exact Or.inl ⟨rfl, rfl⟩
    · rw [e1, e2]
      rcases ih with ⟨i1, i2⟩ | ⟨x', y', i1, i2, i3⟩
      · rw [i1, i2]; exact Or.inl ⟨rfl, rfl⟩
      · rw [i1, i2]; exact Or.inr ⟨x :: x', y :: y', rfl, rfl, .cons e3 i3⟩

/-- The renumbering of one state in `remove_states`. -/
def renumber (find : Nat → Option Nat) (s : NfaState) : Option NfaState := do
  let tr ← s.transitions.mapM (fun ts => ts.mapM find)
  let eps ← s.epsilonTransitions.mapM find
  pure { s with transitions := tr, epsilonTransitions := eps }

theorem renumber_same (find : Nat → Option Nat) {a b : List NfaState} (h : SameL a b) :
    (a.mapM (renumber find) = none ∧ b.mapM (renumber find) = none) ∨
    ∃ x y, a.mapM (renumber find) = some x ∧ b.mapM (renumber find) = some y ∧ SameL x y := by
  induction h with
  | nil => exact Or.inr ⟨[], [], by simp, by simp, .nil⟩
  | @cons s t a b h1 _ ih =>
    rw [List.mapM_cons, List.mapM_cons]
    have hst : (renumber find s = none ∧ renumber find t = none) ∨
        ∃ x y, renumber find s = some x ∧ renumber find t = some y ∧ x.SameButOrder y := by
      unfold renumber
      rcases mapM_rows (f := find) h1.2.2.2.2 with ⟨e1, e2⟩ | ⟨x, y, e1, e2, e3⟩
      · rw [e1, e2]; exact Or.inl ⟨rfl, rfl⟩
      · rw [e1, e2]
        rcases mapM_perm (f := find) h1.2.2.2.1 with ⟨i1, i2⟩ | ⟨x', y', i1, i2, i3⟩
        · rw [i1, i2]; exact Or.inl ⟨rfl, rfl⟩
        · rw [i1, i2]; exact Or.inr ⟨_, _, rfl, rfl, h1.1, h1.2.1, h1.2.2.1, i3, e3⟩
    rcases hst with ⟨e1, e2⟩ | ⟨x, y, e1, e2, e3⟩
    · rw [e1, e2]; exact Or.inl ⟨rfl, rfl⟩
    · rw [e1, e2]
      rcases ih with ⟨i1, i2⟩ | ⟨x', y', i1, i2, i3⟩
      · rw [i1, i2]; exact Or.inl ⟨rfl, rfl⟩
      · rw [i1, i2]; exact Or.inr ⟨x :: x', y :: y', rfl, rfl, .cons e3 i3⟩

theorem vecRemoveAll_same (is : List Nat) {a b : List NfaState} (h : SameL a b) :
    (vecRemoveAll is a = none ∧ vecRemoveAll is b = none) ∨
    ∃ x y, vecRemoveAll is a = some x ∧ vecRemoveAll is b = some y ∧ SameL x y := by
  induction is generalizing a b with
  | nil => exact Or.inr ⟨a, b, rfl, rfl, h⟩
  | cons i is ih =>
    simp only [vecRemoveAll, vecRemove, h.length]
    split
    · refine ih ?_
      have key : ∀ {a b : List NfaState} (i : Nat), SameL a b → SameL (a.eraseIdx i) (b.eraseIdx i) := by
        intro a b i h
        induction h generalizing i with
        | nil => exact .nil
        | cons h1 h2 ih => cases i with
          | zero => exact h2
          | succ i => exact .cons h1 (ih i)
      exact key i h
    · exact Or.inl ⟨rfl, rfl⟩

/-- Two optional results, both absent or related. -/
def SR {α β : Type} (R : α → β → Prop) (x : Option α) (y : Option β) : Prop :=
  (x = none ∧ y = none) ∨ ∃ a b, x = some a ∧ y = some b ∧ R a b

theorem SR.bind {α β γ δ : Type} {R : α → β → Prop} {R' : γ → δ → Prop} {x : Option α} {y : Option β}
    {f : α → Option γ} {g : β → Option δ} (h : SR R x y) (hfg : ∀ a b, R a b → SR R' (f a) (g b)) :
    SR R' (x.bind f) (y.bind g) := by
  rcases h with ⟨rfl, rfl⟩ | ⟨a, b, rfl, rfl, hab⟩
  · exact Or.inl ⟨rfl, rfl⟩
  · exact hfg a b hab

/-- The results are both panics, or both automata that differ at most in the order of targets. -/
abbrev SameResult (x y : Option Nfa) : Prop := SR Nfa.SameButOrder x y

theorem removeStates_same {m n : Nfa} (h : m.SameButOrder n) {a b : List Nat} (hp : a.Perm b) :
    SameResult (m.removeStates a) (n.removeStates b) := by
  rw [Nfa.removeStates_perm hp]
  unfold Nfa.removeStates
  obtain ⟨ha, hi, hs⟩ := h
  dsimp only
  rw [hi]
  cases binarySearch (b.insertionSort (· ≤ ·)) n.initialState with
  | ok _ => exact Or.inl ⟨rfl, rfl⟩
  | error k =>
    simp only [Option.bind_eq_bind, Option.bind_some]
    have hl : m.states.length = n.states.length := SameL.length hs
    rcases vecRemoveAll_same (b.insertionSort (· ≤ ·)).reverse hs with ⟨e1, e2⟩ | ⟨x, y, e1, e2, e3⟩
    · rw [e1, e2]; exact Or.inl ⟨rfl, rfl⟩
    · rw [e1, e2, hl]
      simp only [Option.bind_some]
      cases vecRemoveAll (b.insertionSort (· ≤ ·)).reverse (List.range n.states.length) with
      | none => exact Or.inl ⟨rfl, rfl⟩
      | some old =>
        simp only [Option.bind_some]
        rcases renumber_same (fun t => (binarySearch old t).toOption) e3 with ⟨i1, i2⟩ | ⟨x', y', i1, i2, i3⟩
        · unfold renumber at i1 i2
          simp only [Option.bind_eq_bind] at i1 i2
          rw [i1, i2]; exact Or.inl ⟨rfl, rfl⟩
        · unfold renumber at i1 i2
          simp only [Option.bind_eq_bind] at i1 i2
          rw [i1, i2]; exact Or.inr ⟨_, _, rfl, rfl, ha, rfl, i3⟩

theorem inlined_same {n : Nfa} {ordT ordT' : Nat → Nat → List Nat → List Nat} (h : ∀ s c l, (ordT s c l).Perm l)
    (h' : ∀ s c l, (ordT' s c l).Perm l) : SameL (Nfa.inlined ordT n) (Nfa.inlined ordT' n) := by
  unfold Nfa.inlined
  refine List.forall₂_map_left_iff.2 (List.forall₂_map_right_iff.2 (List.forall₂_same.2 ?_))
  intro p _
  refine ⟨rfl, rfl, rfl, .rfl, ?_⟩
  refine List.forall₂_map_left_iff.2 (List.forall₂_map_right_iff.2 (List.forall₂_same.2 ?_))
  intro q _
  exact (h _ _ _).trans (h' _ _ _).symm

theorem SameL.append_one {a b : List NfaState} (h : SameL a b) {s t : NfaState} (hst : s.SameButOrder t) :
    SameL (a ++ [s]) (b ++ [t]) := by
  induction h with
  | nil => exact .cons hst .nil
  | cons h1 _ ih => exact .cons h1 ih

theorem removeEpsilonMoves_same {n : Nfa} {ordT ordT' : Nat → Nat → List Nat → List Nat} {ordD ordD' : List Nat → List Nat}
    (h : ∀ s c l, (ordT s c l).Perm l) (h' : ∀ s c l, (ordT' s c l).Perm l) (hD : ∀ l, (ordD l).Perm l)
    (hD' : ∀ l, (ordD' l).Perm l) :
    SameResult (n.removeEpsilonMoves ordT ordD) (n.removeEpsilonMoves ordT' ordD') := by
  unfold Nfa.removeEpsilonMoves
  split
  · exact Or.inr ⟨n, n, rfl, rfl, rfl, rfl, List.forall₂_same.2 fun _ _ => .refl _⟩
  have hs := inlined_same (n := n) h h'
  have hfin : ∀ {a b : List NfaState} (_ : SameL a b) (D : List Nat) (i : Nat),
      SameResult (Nfa.removeStates ({ alphabet := n.alphabet, states := a.map (fun s =>
          { s with transitions := s.transitions.map (fun ts => ts.filter (· ∉ D)) }), initialState := i } : Nfa) (ordD D))
        (Nfa.removeStates ({ alphabet := n.alphabet, states := b.map (fun s =>
          { s with transitions := s.transitions.map (fun ts => ts.filter (· ∉ D)) }), initialState := i } : Nfa)
          (ordD' D)) := by
    intro a b hab D i
    have h1 : Nfa.SameButOrder
      ({ alphabet := n.alphabet, states := a.map (fun s =>
          { s with transitions := s.transitions.map (fun ts => ts.filter (· ∉ D)) }), initialState := i } : Nfa)
      ({ alphabet := n.alphabet, states := b.map (fun s =>
          { s with transitions := s.transitions.map (fun ts => ts.filter (· ∉ D)) }), initialState := i } : Nfa) :=
      ⟨rfl, rfl, hab.noDead D⟩
    exact removeStates_same h1 ((hD D).trans (hD' D).symm)
  have hinl : ∀ ordT : Nat → Nat → List Nat → List Nat, (n.states.zipIdx.map (fun p : NfaState × Nat => { p.1 with
      transitions := p.1.transitions.zipIdx.map (fun q =>
        ordT p.2 q.2 (q.1.foldl (fun set t => sextend set (((List.range n.states.length).filterMap n.closure).getD t [])) []))
      epsilonTransitions := [] })) = Nfa.inlined ordT n := fun _ => rfl
  have hcls : (List.range n.states.length).filterMap n.closure = n.closures := rfl
  simp only []
  rw [hinl, hinl, hcls, hs.deadLoop]
  cases Nfa.deadLoop (Nfa.inlined ordT' n) (n.states.length + 1) [] with
  | none => exact Or.inl ⟨rfl, rfl⟩
  | some dead =>
    simp only [Option.bind_eq_bind, Option.bind_some]
    by_cases hlong : ((n.closures.getD n.initialState []).filter (· ∉ dead)).length > 1
    · rw [if_pos hlong, if_pos hlong]
      generalize (n.closures.getD n.initialState []).filter (· ∉ dead) = icl
      have h2 := hs.modify_initial n.initialState
      generalize (Nfa.inlined ordT n).modify n.initialState _ = a at h2 ⊢
      generalize (Nfa.inlined ordT' n).modify n.initialState _ = b at h2 ⊢
      have h3 := h2.getD n.initialState
      rw [h3.2.2.1, h3.all_iff dead]
      generalize (!(b.getD n.initialState default).accepting &&
        (b.getD n.initialState default).transitions.all (fun ts => ts.all (· ∈ dead))) = od
      have hnew : ∀ D : List Nat, NfaState.SameButOrder
          { name := if od = true then (a.getD n.initialState default).name else Nfa.freshName (a.map (·.name)) Nfa.sNew
            initial := true, accepting := icl.any (fun i => (a.getD i default).accepting), epsilonTransitions := []
            transitions := (List.range n.alphabet.length).map (fun c =>
              (ordT n.states.length c (icl.foldl (fun set s =>
                sextend set ((a.getD s default).transitions.getD c [])) [])).filter (· ∉ D)) }
          { name := if od = true then (b.getD n.initialState default).name else Nfa.freshName (b.map (·.name)) Nfa.sNew
            initial := true, accepting := icl.any (fun i => (b.getD i default).accepting), epsilonTransitions := []
            transitions := (List.range n.alphabet.length).map (fun c =>
              (ordT' n.states.length c (icl.foldl (fun set s =>
                sextend set ((b.getD s default).transitions.getD c [])) [])).filter (· ∉ D)) } := by
        intro D
        refine ⟨?_, rfl, ?_, .rfl, ?_⟩
        · dsimp only; rw [h3.1, h2.names]
        · dsimp only
          have : (fun i => (a.getD i default).accepting) = (fun i => (b.getD i default).accepting) := by
            funext i; exact (h2.getD i).2.2.1
          rw [this]
        · dsimp only
          refine List.forall₂_map_left_iff.2 (List.forall₂_map_right_iff.2 (List.forall₂_same.2 ?_))
          intro c _
          refine List.Perm.filter _ ((h _ _ _).trans (List.Perm.trans ?_ (h' _ _ _).symm))
          rw [foldl_sextend_perm (fun s => (a.getD s default).transitions.getD c [])
            (fun s => (b.getD s default).transitions.getD c []) (l := icl) (m := icl) .nil (fun _ => Iff.rfl)
            (fun s _ y => ((h2.getD s).getD c).mem_iff)]
      cases od with
      | true =>
        simp only [if_true] at hnew ⊢
        rw [h2.deadLoop]
        cases Nfa.deadLoop b (n.states.length + 1) (sins n.initialState dead) with
        | none => exact Or.inl ⟨rfl, rfl⟩
        | some D =>
          simp only [Option.bind_some]
          rw [h2.length]
          exact hfin (h2.append_one (hnew D)) D b.length
      | false =>
        simp only [Bool.false_eq_true, if_false] at hnew ⊢
        rw [h2.length]
        exact hfin (h2.append_one (hnew dead)) dead b.length
    · rw [if_neg hlong, if_neg hlong]
      exact hfin hs dead n.initialState

/-! ## The subset construction does not see the order of targets -/

theorem sextend_perm {s l m : List Nat} (hs : s.Pairwise (· < ·)) (h : l.Perm m) : sextend s l = sextend s m :=
  sorted_ext (sorted_sextend hs) (sorted_sextend hs) (fun x => by rw [mem_sextend, mem_sextend, h.mem_iff])

section
variable {m n : Nfa}

theorem state_same (h : m.SameButOrder n) (q : Nat) : (m.state q).SameButOrder (n.state q) := SameL.getD h.2.2 q

theorem flatMap_perm {f g : Nat → List Nat} (l : List Nat) (h : ∀ x, (f x).Perm (g x)) : (l.flatMap f).Perm (l.flatMap g) := by
  induction l with
  | nil => exact .rfl
  | cons a l ih => rw [List.flatMap_cons, List.flatMap_cons]; exact (h a).append ih

theorem includeClosure_same (h : m.SameButOrder n) (k : Nat) {cur : List Nat} (hs : cur.Pairwise (· < ·)) :
    m.includeClosure k cur = n.includeClosure k cur ∧ (n.includeClosure k cur).Pairwise (· < ·) := by
  induction k generalizing cur with
  | zero => exact ⟨rfl, hs⟩
  | succ k ih =>
    have hp : (m.closureRound cur).Perm (n.closureRound cur) :=
      (flatMap_perm cur (fun s => (state_same h s).2.2.2.1)).filter _
    simp only [Nfa.includeClosure]
    rw [sextend_perm hs hp]
    by_cases he : n.closureRound cur = []
    · rw [he] at hp ⊢
      rw [if_pos (List.Perm.eq_nil hp), if_pos rfl]
      exact ⟨rfl, hs⟩
    · rw [if_neg he, if_neg (fun h0 => he (by rw [h0] at hp; exact List.Perm.eq_nil hp.symm))]
      exact ih (sorted_sextend hs)

/-- Evaluators of two automata in the same set of states. -/
def EvRel (m n : Nfa) (a b : NfaEval) : Prop :=
  a.nfa = m ∧ b.nfa = n ∧ a.cur = b.cur ∧ a.unknown = b.unknown ∧ b.cur.Pairwise (· < ·)

theorem evRel_new (h : m.SameButOrder n) : EvRel m n (NfaEval.new m) (NfaEval.new n) := by
  have hl : m.states.length = n.states.length := SameL.length h.2.2
  have hc := includeClosure_same h (n.states.length + 1) (cur := [n.initialState]) (List.pairwise_singleton _ _)
  refine ⟨rfl, rfl, ?_, rfl, hc.2⟩
  simp only [NfaEval.new]
  rw [hl, h.2.1]; exact hc.1

theorem evRel_accepting (h : m.SameButOrder n) {a b : NfaEval} (hr : EvRel m n a b) : a.isAccepting = b.isAccepting := by
  obtain ⟨h1, h2, h3, h4, _⟩ := hr
  unfold NfaEval.isAccepting
  rw [h4, h3, h1, h2]
  have : (fun s => (m.state s).accepting) = fun s => (n.state s).accepting := by
    funext s; exact (state_same h s).2.2.1
  rw [this]

theorem evRel_step (h : m.SameButOrder n) {a b : NfaEval} (hr : EvRel m n a b) (e : Str) :
    EvRel m n (a.step e).1 (b.step e).1 := by
  obtain ⟨h1, h2, h3, h4, h5⟩ := hr
  unfold NfaEval.step
  rw [h1, h2, h.1]
  cases revGet n.alphabet e with
  | none => exact ⟨rfl, rfl, h3, rfl, h5⟩
  | some i =>
    dsimp only
    have hl : m.states.length = n.states.length := SameL.length h.2.2
    have hp : sofList (a.cur.flatMap (fun s => (m.state s).transitions.getD i [])) =
        sofList (b.cur.flatMap (fun s => (n.state s).transitions.getD i [])) := by
      rw [h3]
      exact sextend_perm .nil (flatMap_perm _ (fun s => (state_same h s).getD i))
    rw [hp, hl]
    have hc := includeClosure_same h (n.states.length + 1) (sorted_sofList (b.cur.flatMap (fun s => (n.state s).transitions.getD i [])))
    exact ⟨rfl, rfl, hc.1, h4, hc.2⟩

theorem evRel_stepAll (h : m.SameButOrder n) {a b : NfaEval} (hr : EvRel m n a b) :
    List.Forall₂ (EvRel m n) a.stepAll b.stepAll := by
  unfold NfaEval.stepAll
  rw [hr.1, hr.2.1, h.1]
  exact List.forall₂_map_left_iff.2 (List.forall₂_map_right_iff.2 (List.forall₂_same.2 fun e _ => evRel_step h hr e))

end

section
variable {σ τ κ : Type} [DecidableEq κ] {R : σ → τ → Prop} {key : σ → κ} {key' : τ → κ}

omit [DecidableEq κ] in
theorem map_key_rel (hk : ∀ a b, R a b → key a = key' b) {l : List σ} {l' : List τ} (h : List.Forall₂ R l l') :
    l.map key = l'.map key' := by
  induction h with
  | nil => rfl
  | cons h _ ih => rw [List.map_cons, List.map_cons, hk _ _ h, ih]

theorem forall₂_append_one {l : List σ} {l' : List τ} (h : List.Forall₂ R l l') {a : σ} {b : τ} (hab : R a b) :
    List.Forall₂ R (l ++ [a]) (l' ++ [b]) := List.rel_append h (.cons hab .nil)

theorem pushNew_rel (hk : ∀ a b, R a b → key a = key' b) {ts : List σ} {ts' : List τ} (h : List.Forall₂ R ts ts')
    {p : List σ × List σ} {p' : List τ × List τ} (h1 : List.Forall₂ R p.1 p'.1) (h2 : List.Forall₂ R p.2 p'.2) :
    List.Forall₂ R (pushNew key ts p).1 (pushNew key' ts' p').1 ∧ List.Forall₂ R (pushNew key ts p).2 (pushNew key' ts' p').2 := by
  induction h generalizing p p' with
  | nil => exact ⟨h1, h2⟩
  | cons h _ ih =>
    obtain ⟨p1, p2⟩ := p
    obtain ⟨p1', p2'⟩ := p'
    simp only [pushNew]
    rw [hk _ _ h, map_key_rel hk h2]
    split
    · exact ih h1 h2
    · exact ih (.cons h h1) (forall₂_append_one h2 h)

theorem explore_rel (hk : ∀ a b, R a b → key a = key' b) {succ : σ → List σ} {succ' : τ → List τ} {ok : σ → Bool} {ok' : τ → Bool}
    (hs : ∀ a b, R a b → List.Forall₂ R (succ a) (succ' b)) (ho : ∀ a b, R a b → ok a = ok' b) (k : Nat)
    {st seen out : List σ} {st' seen' out' : List τ} (h1 : List.Forall₂ R st st') (h2 : List.Forall₂ R seen seen')
    (h3 : List.Forall₂ R out out') :
    SR (SR (fun p q => List.Forall₂ R p.1 q.1 ∧ List.Forall₂ R p.2 q.2)) (explore key succ ok k st seen out)
      (explore key' succ' ok' k st' seen' out') := by
  induction k generalizing st seen out st' seen' out' with
  | zero => exact Or.inl ⟨rfl, rfl⟩
  | succ k ih =>
    cases h1 with
    | nil => exact Or.inr ⟨_, _, rfl, rfl, Or.inr ⟨_, _, rfl, rfl, h3, h2⟩⟩
    | cons ha hst =>
      simp only [explore]
      rw [ho _ _ ha]
      split
      · obtain ⟨i1, i2⟩ := pushNew_rel hk (hs _ _ ha) (p := (_, _)) (p' := (_, _)) hst h2
        exact ih i1 i2 (forall₂_append_one h3 ha)
      · exact Or.inr ⟨_, _, rfl, rfl, Or.inl ⟨rfl, rfl⟩⟩

theorem mapM_rel {β : Type} {f : σ → Option β} {g : τ → Option β} {l : List σ} {l' : List τ} (h : List.Forall₂ R l l')
    (hfg : ∀ a b, R a b → f a = g b) : l.mapM f = l'.mapM g := by
  induction h with
  | nil => simp
  | cons h _ ih => rw [List.mapM_cons, List.mapM_cons, hfg _ _ h, ih]

theorem zipIdx_rel {l : List σ} {l' : List τ} (h : List.Forall₂ R l l') (k : Nat) :
    List.Forall₂ (fun p q => R p.1 q.1 ∧ p.2 = q.2) (l.zipIdx k) (l'.zipIdx k) := by
  induction h generalizing k with
  | nil => exact .nil
  | cons h _ ih => rw [List.zipIdx_cons, List.zipIdx_cons]; exact .cons ⟨h, rfl⟩ (ih _)

end

theorem toDfa_same {m n : Nfa} (h : m.SameButOrder n) : m.toDfa = n.toDfa := by
  have hl : m.states.length = n.states.length := SameL.length h.2.2
  have hk : ∀ a b, EvRel m n a b → a.currentStatesIdx = b.currentStatesIdx := fun a b hr => hr.2.2.1
  have hx := explore_rel (R := EvRel m n) hk (succ := NfaEval.stepAll) (succ' := NfaEval.stepAll)
    (ok := fun _ => true) (ok' := fun _ => true) (fun a b hr => evRel_stepAll h hr) (fun _ _ _ => rfl) (2 ^ n.states.length + 1)
    (st := [NfaEval.new m]) (seen := [NfaEval.new m]) (out := []) (.cons (evRel_new h) .nil) (.cons (evRel_new h) .nil) .nil
  unfold Nfa.toDfa
  rw [hl]
  dsimp only
  rcases hx with ⟨e1, e2⟩ | ⟨x, y, e1, e2, ⟨rfl, rfl⟩ | ⟨p, q, rfl, rfl, h1, h2⟩⟩
  · rw [e1, e2]; rfl
  · rw [e1, e2]; rfl
  · rw [e1, e2, h.1]
    simp only [Option.bind_eq_bind, Option.bind_some]
    rw [map_key_rel hk h2]
    have htr : p.1.mapM (fun ev => (ev.stepAll.mapM (fun ev' => (q.2.map NfaEval.currentStatesIdx).findIdx?
          (· == ev'.currentStatesIdx))).bind (fun tr => pure (ev.currentStatesIdx, tr))) =
        q.1.mapM (fun ev => (ev.stepAll.mapM (fun ev' => (q.2.map NfaEval.currentStatesIdx).findIdx?
          (· == ev'.currentStatesIdx))).bind (fun tr => pure (ev.currentStatesIdx, tr))) := by
      refine mapM_rel h1 ?_
      intro a b hab
      rw [hk a b hab]
      congr 1
      refine mapM_rel (evRel_stepAll h hab) ?_
      intro a' b' hab'
      rw [hk a' b' hab']
    rw [htr]
    congr 1
    funext tr
    congr 1
    refine mapM_rel (zipIdx_rel h2 0) ?_
    rintro ⟨a, i⟩ ⟨b, j⟩ ⟨hab, rfl⟩
    dsimp only
    rw [hk a b hab, evRel_accepting h hab]

end Dandy
