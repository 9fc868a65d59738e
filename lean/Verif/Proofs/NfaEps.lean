import Verif.Proofs.NfaRestr
import Verif.Proofs.Names
/-! # Removal of epsilon moves: lemmas -/

namespace Dandy
namespace Nfa

/-! ## The dead state search -/

/-- Invariant of the set of dead states. -/
structure DeadInv (sts : List NfaState) (D : List Nat) : Prop where
  sorted : D.Pairwise (· < ·)
  lt : ∀ x ∈ D, x < sts.length
  nacc : ∀ x ∈ D, (sts.getD x default).accepting = false
  step : ∀ x ∈ D, ∀ ts ∈ (sts.getD x default).transitions, ∀ t ∈ ts, t ∈ D

theorem deadInv_nil (sts : List NfaState) : DeadInv sts [] := ⟨.nil, by simp, by simp, by simp⟩

theorem isDead_iff {D : List Nat} {i : Nat} {s : NfaState} : isDead D i s = true ↔
    i ∉ D ∧ s.accepting = false ∧ s.initial = false ∧ ∀ ts ∈ s.transitions, ∀ t ∈ ts, t ∈ D := by
  simp [isDead, and_assoc]

theorem DeadInv.insert {sts : List NfaState} {D : List Nat} (h : DeadInv sts D) {i : Nat} (hi : i < sts.length)
    (ha : (sts.getD i default).accepting = false) (ht : ∀ ts ∈ (sts.getD i default).transitions, ∀ t ∈ ts, t ∈ D) :
    DeadInv sts (sins i D) := by
  refine ⟨sorted_sins h.sorted, ?_, ?_, ?_⟩
  · intro x hx
    rw [mem_sins] at hx
    rcases hx with rfl | hx
    · exact hi
    · exact h.lt x hx
  · intro x hx
    rw [mem_sins] at hx
    rcases hx with rfl | hx
    · exact ha
    · exact h.nacc x hx
  · intro x hx ts hts t htt
    rw [mem_sins] at hx ⊢
    rcases hx with rfl | hx
    · exact Or.inr (ht ts hts t htt)
    · exact Or.inr (h.step x hx ts hts t htt)

theorem deadPass_spec {sts : List NfaState} (l : List (NfaState × Nat)) (hl : ∀ p ∈ l, sts[p.2]? = some p.1)
    {D : List Nat} (h : DeadInv sts D) :
    DeadInv sts (deadPass l D) ∧ (∀ x ∈ D, x ∈ deadPass l D) ∧
    (∀ x ∈ deadPass l D, x ∈ D ∨ (sts.getD x default).initial = false) ∧
    (deadPass l D = D → ∀ p ∈ l, isDead D p.2 p.1 = false) := by
  induction l generalizing D with
  | nil => exact ⟨h, fun x hx => hx, fun x hx => Or.inl hx, by simp⟩
  | cons p l ih =>
    obtain ⟨s, i⟩ := p
    have hp := hl (s, i) (by simp)
    have hl' : ∀ p ∈ l, sts[p.2]? = some p.1 := fun q hq => hl q (List.mem_cons_of_mem _ hq)
    have hi : i < sts.length := lt_of_getElem? hp
    have hs : sts.getD i default = s := getD_eq_of_getElem? hp
    simp only [deadPass]
    cases hd : isDead D i s with
    | false =>
      simp only [Bool.false_eq_true, if_false]
      obtain ⟨h1, h2, h3, h4⟩ := ih hl' h
      refine ⟨h1, h2, h3, ?_⟩
      intro he p hp
      rcases List.mem_cons.1 hp with rfl | hp
      · exact hd
      · exact h4 he p hp
    | true =>
      simp only [if_true]
      obtain ⟨d1, d2, d3, d4⟩ := isDead_iff.1 hd
      obtain ⟨h1, h2, h3, _⟩ := ih hl' (h.insert hi (by rw [hs]; exact d2) (by rw [hs]; exact d4))
      refine ⟨h1, fun x hx => h2 x (by rw [mem_sins]; exact Or.inr hx), ?_, ?_⟩
      · intro x hx
        rcases h3 x hx with h5 | h5
        · rw [mem_sins] at h5
          rcases h5 with rfl | h5
          · right; rw [hs]; exact d3
          · exact Or.inl h5
        · exact Or.inr h5
      · intro he
        have : i ∈ D := by rw [← he]; exact h2 i (by rw [mem_sins]; exact Or.inl rfl)
        exact absurd this d1

theorem deadLoop_spec {sts : List NfaState} : ∀ (k : Nat) (D : List Nat), DeadInv sts D → sts.length - D.length + 1 ≤ k →
    ∃ D', deadLoop sts k D = some D' ∧ DeadInv sts D' ∧ (∀ x ∈ D, x ∈ D') ∧
      (∀ x ∈ D', x ∈ D ∨ (sts.getD x default).initial = false) ∧
      (∀ i < sts.length, isDead D' i (sts.getD i default) = false) := by
  intro k
  induction k with
  | zero => intro D _ h; omega
  | succ k ih =>
    intro D h hk
    have hz : ∀ p ∈ sts.zipIdx, sts[p.2]? = some p.1 := fun p hp => List.mem_zipIdx_iff_getElem?.1 hp
    obtain ⟨h1, h2, h3, h4⟩ := deadPass_spec sts.zipIdx hz h
    simp only [deadLoop]
    by_cases he : deadPass sts.zipIdx D = D
    · rw [if_pos he]
      refine ⟨D, rfl, h, fun x hx => hx, fun x hx => Or.inl hx, ?_⟩
      intro i hi
      exact h4 he (sts.getD i default, i) (List.mem_zipIdx_iff_getElem?.2 (getElem?_of_lt default hi))
    · rw [if_neg he]
      have hlen : D.length + 1 ≤ (deadPass sts.zipIdx D).length := by
        have : ∃ x ∈ deadPass sts.zipIdx D, x ∉ D := by
          by_contra hc
          push Not at hc
          exact he (sorted_ext h1.sorted h.sorted (fun x => ⟨hc x, h2 x⟩))
        obtain ⟨x, hx, hxD⟩ := this
        have hnd : (x :: D).Nodup := List.nodup_cons.2 ⟨hxD, sorted_nodup h.sorted⟩
        have := nodup_subset_length_le hnd (K := deadPass sts.zipIdx D) (by
          intro y hy
          rcases List.mem_cons.1 hy with rfl | hy
          · exact hx
          · exact h2 y hy)
        simpa using this
      have hle := nodup_length_le (sorted_nodup h1.sorted) h1.lt
      obtain ⟨D', e1, e2, e3, e4, e5⟩ := ih _ h1 (by omega)
      refine ⟨D', e1, e2, fun x hx => e3 x (h2 x hx), ?_, e5⟩
      intro x hx
      rcases e4 x hx with h6 | h6
      · exact h3 x h6
      · exact Or.inr h6

/-- Whatever holds for states all of whose transitions lead to such states holds for the states found. -/
theorem deadLoop_least {sts : List NfaState} {P : Nat → Prop}
    (hP : ∀ i < sts.length, (sts.getD i default).accepting = false → (sts.getD i default).initial = false →
      (∀ ts ∈ (sts.getD i default).transitions, ∀ t ∈ ts, P t) → P i) :
    ∀ (k : Nat) (D D' : List Nat), (∀ x ∈ D, P x) → deadLoop sts k D = some D' → ∀ x ∈ D', P x := by
  have hpass : ∀ (l : List (NfaState × Nat)), (∀ p ∈ l, sts[p.2]? = some p.1) → ∀ D : List Nat, (∀ x ∈ D, P x) →
      ∀ x ∈ deadPass l D, P x := by
    intro l
    induction l with
    | nil => exact fun _ D hD => hD
    | cons p l ih =>
      intro hl D hD
      obtain ⟨s, i⟩ := p
      have hp := hl (s, i) List.mem_cons_self
      rw [deadPass]
      refine ih (fun q hq => hl q (List.mem_cons_of_mem _ hq)) _ ?_
      split
      · rename_i hd
        obtain ⟨_, d2, d3, d4⟩ := isDead_iff.1 hd
        intro x hx
        rcases mem_sins.1 hx with rfl | hx
        · have hs : sts.getD x default = s := getD_eq_of_getElem? hp
          exact hP x (lt_of_getElem? hp) (by rw [hs]; exact d2) (by rw [hs]; exact d3)
            (by rw [hs]; exact fun ts hts t ht => hD t (d4 ts hts t ht))
        · exact hD x hx
      · exact hD
  intro k
  induction k with
  | zero => intro D D' _ h; cases h
  | succ k ih =>
    intro D D' hD h
    have h1 := hpass sts.zipIdx (fun p hp => List.mem_zipIdx_iff_getElem?.1 hp) D hD
    simp only [deadLoop] at h
    split at h
    · cases h; exact hD
    · exact ih _ D' h1 h

/-! ## Inlining the closures -/

/-- Members of a fold of `extend`s. -/
theorem mem_foldl_sextend {α : Type} (f : α → List Nat) (l : List α) (s : List Nat) {x : Nat} :
    x ∈ l.foldl (fun set t => sextend set (f t)) s ↔ x ∈ s ∨ ∃ t ∈ l, x ∈ f t := by
  induction l generalizing s with
  | nil => simp
  | cons a l ih =>
    rw [List.foldl_cons, ih, mem_sextend]
    simp [or_assoc]

/-- The vector of closures. -/
def closures (n : Nfa) : List (List Nat) := (List.range n.states.length).filterMap n.closure

theorem mem_closures {n : Nfa} (hn : n.WF) {t x : Nat} (ht : t < n.states.length) :
    x ∈ n.closures.getD t [] ↔ n.EpsR t x := by
  classical
  have hex : ∀ q, ∃ c, q < n.states.length → n.closure q = some c ∧ ∀ x, x ∈ c ↔ n.EpsR q x := by
    intro q
    by_cases hq : q < n.states.length
    · obtain ⟨r, h1, _, h3⟩ := closure_spec hn hq; exact ⟨r, fun _ => ⟨h1, h3⟩⟩
    · exact ⟨[], fun h => absurd h hq⟩
  choose cl hcl using hex
  have : n.closures = (List.range n.states.length).map cl := by
    unfold closures
    rw [← List.filterMap_eq_map]
    apply List.filterMap_congr
    intro q hq
    rw [(hcl q (List.mem_range.1 hq)).1]; rfl
  rw [this, getD_eq_of_getElem? (a := cl t) (by simp [ht])]
  exact (hcl t ht).2 x

theorem closures_getD {n : Nfa} (hn : n.WF) {t : Nat} {r : List Nat} (ht : t < n.states.length) (h : n.closure t = some r) :
    n.closures.getD t [] = r := by
  have : n.closures = (List.range n.states.length).map (fun q => (n.closure q).getD []) := by
    unfold closures
    rw [← List.filterMap_eq_map]
    apply List.filterMap_congr
    intro q hq
    obtain ⟨r, h1, _⟩ := closure_spec hn (List.mem_range.1 hq)
    simp [h1]
  rw [this, getD_eq_of_getElem? (a := (n.closure t).getD []) (by simp [ht]), h]
  rfl

/-- The states after inlining. -/
def inlined (ordT : Nat → Nat → List Nat → List Nat) (n : Nfa) : List NfaState :=
  n.states.zipIdx.map (fun p => { p.1 with
      transitions := p.1.transitions.zipIdx.map (fun q =>
        ordT p.2 q.2 (q.1.foldl (fun set t => sextend set (n.closures.getD t [])) []))
      epsilonTransitions := [] })

variable {ordT : Nat → Nat → List Nat → List Nat} {n : Nfa}

theorem inlined_length : (inlined ordT n).length = n.states.length := by simp [inlined]

theorem inlined_getElem? {q : Nat} : (inlined ordT n)[q]? = (n.states[q]?).map (fun s => { s with
      transitions := s.transitions.zipIdx.map (fun p =>
        ordT q p.2 (p.1.foldl (fun set t => sextend set (n.closures.getD t [])) []))
      epsilonTransitions := [] }) := by
  simp only [inlined, List.getElem?_map, List.getElem?_zipIdx, Option.map_map, Function.comp_def, Nat.zero_add]

theorem inlined_state {q : Nat} (hq : q < n.states.length) : (inlined ordT n).getD q default =
    { n.state q with
      transitions := (n.state q).transitions.zipIdx.map (fun p =>
        ordT q p.2 (p.1.foldl (fun set t => sextend set (n.closures.getD t [])) []))
      epsilonTransitions := [] } := by
  apply getD_eq_of_getElem?
  rw [inlined_getElem?, getElem?_state hq]; rfl

theorem inlined_tr (hord : ∀ s c l, (ordT s c l).Perm l) (hn : n.WF) {q : Nat} (hq : q < n.states.length) {c t : Nat} :
    t ∈ ((inlined ordT n).getD q default).transitions.getD c [] ↔ ∃ u ∈ n.tr q c, n.EpsR u t := by
  rw [inlined_state hq]
  by_cases hc : c < (n.state q).transitions.length
  · have h1 : ((n.state q).transitions.zipIdx.map (fun p =>
        ordT q p.2 (p.1.foldl (fun set t => sextend set (n.closures.getD t [])) [])))[c]? =
        some (ordT q c ((n.tr q c).foldl (fun set t => sextend set (n.closures.getD t [])) [])) := by
      simp [List.getElem?_map, List.getElem?_zipIdx, hc, tr]
    rw [getD_eq_of_getElem? h1, (hord _ _ _).mem_iff, mem_foldl_sextend]
    simp only [List.not_mem_nil, false_or]
    constructor
    · rintro ⟨u, h2, h3⟩; exact ⟨u, h2, (mem_closures hn (tr_lt hn h2)).1 h3⟩
    · rintro ⟨u, h2, h3⟩; exact ⟨u, h2, (mem_closures hn (tr_lt hn h2)).2 h3⟩
  · have : n.tr q c = [] := by simp [tr, hc]
    rw [this]
    simp [hc]

theorem mem_transitions_iff {s : NfaState} {P : Nat → Prop} :
    (∀ ts ∈ s.transitions, ∀ t ∈ ts, P t) ↔ ∀ c : Nat, ∀ t ∈ s.transitions.getD c [], P t := by
  constructor
  · intro h c t ht
    by_cases hc : c < s.transitions.length
    · exact h _ (List.mem_of_getElem? (getElem?_of_lt [] hc)) t ht
    · simp [hc] at ht
  · intro h ts hts t ht
    obtain ⟨c, hc⟩ := List.getElem?_of_mem hts
    exact h c t (by rw [getD_eq_of_getElem? hc]; exact ht)

/-! ## What `remove_epsilon_moves` computes -/

/-- The facts about the automaton just before dead states are removed. -/
structure ElimFacts (n m : Nfa) (D : List Nat) : Prop where
  alph : m.alphabet = n.alphabet
  Dsorted : D.Pairwise (· < ·)
  Dlt : ∀ x ∈ D, x < n.states.length
  le : n.states.length ≤ m.states.length
  old : ∀ q < n.states.length, (m.state q).name = (n.state q).name ∧ (m.state q).accepting = (n.state q).accepting ∧
    (m.state q).epsilonTransitions = [] ∧ (m.state q).transitions.length = n.alphabet.length ∧
    ∀ c t, t ∈ m.tr q c ↔ t ∉ D ∧ ∃ u ∈ n.tr q c, n.EpsR u t
  dead : ∀ x ∈ D, (n.state x).accepting = false ∧ ∀ c, ∀ u ∈ n.tr x c, ∀ t, n.EpsR u t → t ∈ D
  live : ∀ q < n.states.length, q ∉ D → (n.state q).accepting = true ∨ q = m.initialState ∨ ∃ c t, t ∈ m.tr q c
  flags : ∀ q < m.states.length, ((m.state q).initial = true ↔ q = m.initialState)
  init : (m.states.length = n.states.length ∧ m.initialState = n.initialState ∧ n.initialState ∉ D ∧
      ∀ p, n.EpsR n.initialState p → p = n.initialState ∨ p ∈ D) ∨
    (m.states.length = n.states.length + 1 ∧ m.initialState = n.states.length ∧
      (m.state n.states.length).epsilonTransitions = [] ∧
      (m.state n.states.length).transitions.length = n.alphabet.length ∧
      ((m.state n.states.length).accepting = true ↔ ∃ p, n.EpsR n.initialState p ∧ (n.state p).accepting = true) ∧
      (∀ c t, t ∈ m.tr n.states.length c ↔ t ∉ D ∧ ∃ p u, n.EpsR n.initialState p ∧ u ∈ n.tr p c ∧ n.EpsR u t) ∧
      (((m.state n.states.length).name = (n.state n.initialState).name ∧ n.initialState ∈ D) ∨
        ((m.state n.states.length).name = freshName (n.states.map (·.name)) sNew ∧ n.initialState ∉ D)))

/-- The dead states: `b` tells whether the initial state may be one. -/
inductive DeadR (n : Nfa) (b : Bool) : Nat → Prop
  | mk (q : Nat) : q < n.states.length → (n.state q).accepting = false → (b = false → q ≠ n.initialState) →
      (∀ c u t, u ∈ n.tr q c → n.EpsR u t → DeadR n b t) → DeadR n b q

/-- That only dead states are removed, and a state is only added if necessary. -/
structure ElimExact (n m : Nfa) (D : List Nat) : Prop where
  same : m.states.length = n.states.length → ∀ x ∈ D, n.DeadR false x
  more : m.states.length = n.states.length + 1 → (∀ x ∈ D, n.DeadR true x) ∧
    ∃ p, n.EpsR n.initialState p ∧ p ≠ n.initialState ∧ ¬ n.DeadR false p

/-- The words leading from `q` to acceptance, without epsilon moves at the start. -/
def L1 (n : Nfa) : Nat → Word → Prop
  | q, [] => n.Acc q
  | q, e :: w => ∃ (i u t : Nat), n.alphabet[i]? = some e ∧ u ∈ n.tr q i ∧ n.EpsR u t ∧ L1 n t w

theorem path_L1 {n : Nfa} {q : Nat} {w : Word} : (∃ r, n.Path q w r ∧ n.Acc r) ↔ ∃ p, n.EpsR q p ∧ n.L1 p w := by
  induction w generalizing q with
  | nil => simp only [path_nil_iff, L1]
  | cons e w ih =>
    simp only [path_cons_iff, L1]
    constructor
    · rintro ⟨r, ⟨p, t, h1, ⟨i, h2, h3⟩, h4⟩, h5⟩
      obtain ⟨x, h6, h7⟩ := ih.1 ⟨r, h4, h5⟩
      exact ⟨p, h1, i, t, x, h2, h3, h6, h7⟩
    · rintro ⟨p, h1, i, t, x, h2, h3, h6, h7⟩
      obtain ⟨r, h4, h5⟩ := ih.2 ⟨x, h6, h7⟩
      exact ⟨r, ⟨p, t, h1, ⟨i, h2, h3⟩, h4⟩, h5⟩

theorem epsR_of_no_eps {n : Nfa} (h : ∀ q, n.ep q = []) {q r : Nat} : n.EpsR q r ↔ r = q := by
  constructor
  · intro hr
    induction hr with
    | refl => rfl
    | tail _ h2 _ => rw [h] at h2; simp at h2
  · rintro rfl; exact .refl

namespace ElimFacts
variable {m : Nfa} {D : List Nat}

theorem no_eps (h : ElimFacts n m D) (q : Nat) : m.ep q = [] := by
  by_cases hq : q < n.states.length
  · exact (h.old q hq).2.2.1
  · rcases h.init with ⟨h1, _⟩ | ⟨h1, _, h3, _⟩
    · have := state_default (n := m) (q := q) (by omega)
      simp [ep, this]; rfl
    · by_cases hq2 : q = n.states.length
      · subst hq2; exact h3
      · have := state_default (n := m) (q := q) (by omega)
        simp [ep, this]; rfl

theorem not_L1 (h : ElimFacts n m D) {x : Nat} (hx : x ∈ D) (w : Word) : ¬ n.L1 x w := by
  induction w generalizing x with
  | nil => simp only [L1, acc_iff, (h.dead x hx).1]; simp
  | cons e w ih =>
    rintro ⟨i, u, t, _, h2, h3, h4⟩
    exact ih ((h.dead x hx).2 i u h2 t h3) h4

theorem L1_iff (h : ElimFacts n m D) (hn : n.WF) {q : Nat} (hq : q < n.states.length) (w : Word) :
    m.L1 q w ↔ n.L1 q w := by
  induction w generalizing q with
  | nil => simp only [L1, acc_iff, (h.old q hq).2.1]
  | cons e w ih =>
    simp only [L1, epsR_of_no_eps h.no_eps, h.alph, (h.old q hq).2.2.2.2]
    constructor
    · rintro ⟨i, u, t, h1, ⟨_, v, h3, h4⟩, rfl, h5⟩
      exact ⟨i, v, t, h1, h3, h4, (ih (h4.lt hn (tr_lt hn h3))).1 h5⟩
    · rintro ⟨i, v, t, h1, h3, h4, h5⟩
      exact ⟨i, t, t, h1, ⟨fun hD => h.not_L1 hD w h5, v, h3, h4⟩, rfl, (ih (h4.lt hn (tr_lt hn h3))).2 h5⟩

theorem lang (h : ElimFacts n m D) (hn : n.WF) (w : Word) : m.Lang w ↔ n.Lang w := by
  unfold Lang
  rw [path_L1, path_L1]
  simp only [epsR_of_no_eps h.no_eps, exists_eq_left]
  rcases h.init with ⟨h1, h2, h3, h4⟩ | ⟨h1, h2, h3, h4, h5, h6, h7⟩
  · rw [h2, h.L1_iff hn hn.init_lt]
    constructor
    · intro hl; exact ⟨_, .refl, hl⟩
    · rintro ⟨p, h5, h6⟩
      rcases h4 p h5 with rfl | hD
      · exact h6
      · exact absurd h6 (h.not_L1 hD w)
  · rw [h2]
    cases w with
    | nil =>
      simp only [L1, acc_iff, h5]
    | cons e w =>
      simp only [L1, epsR_of_no_eps h.no_eps, h.alph, h6]
      constructor
      · rintro ⟨i, u, t, g1, ⟨_, p, v, g3, g4, g5⟩, rfl, g6⟩
        exact ⟨p, g3, i, v, t, g1, g4, g5, (h.L1_iff hn (g5.lt hn (tr_lt hn g4)) w).1 g6⟩
      · rintro ⟨p, g3, i, v, t, g1, g4, g5, g6⟩
        exact ⟨i, t, t, g1, ⟨fun hD => h.not_L1 hD w g6, p, v, g3, g4, g5⟩, rfl,
          (h.L1_iff hn (g5.lt hn (tr_lt hn g4)) w).2 g6⟩

theorem init_lt (h : ElimFacts n m D) (hn : n.WF) : m.initialState < m.states.length := by
  rcases h.init with ⟨h1, h2, _⟩ | ⟨h1, h2, _⟩
  · rw [h1, h2]; exact hn.init_lt
  · omega

theorem init_not_dead (h : ElimFacts n m D) : m.initialState ∉ D := by
  rcases h.init with ⟨h1, h2, h3, _⟩ | ⟨h1, h2, _⟩
  · rw [h2]; exact h3
  · rw [h2]; intro hc; exact absurd (h.Dlt _ hc) (by omega)

theorem tr_ok (h : ElimFacts n m D) (hn : n.WF) {q c t : Nat} (hq : q < m.states.length) (ht : t ∈ m.tr q c) :
    t < n.states.length ∧ t ∉ D := by
  by_cases hq2 : q < n.states.length
  · obtain ⟨h1, u, h2, h3⟩ := ((h.old q hq2).2.2.2.2 c t).1 ht
    exact ⟨h3.lt hn (tr_lt hn h2), h1⟩
  · rcases h.init with ⟨h1, _⟩ | ⟨h1, _, _, _, _, h6, _⟩
    · omega
    · have : q = n.states.length := by omega
      subst this
      obtain ⟨h1, p, u, _, h2, h3⟩ := (h6 c t).1 ht
      exact ⟨h3.lt hn (tr_lt hn h2), h1⟩

theorem restrOk (h : ElimFacts n m D) (hn : n.WF) : RestrOk m (keptOf m.states.length D) := by
  refine ⟨keptOf_nodup _ _, fun q hq => (mem_keptOf.1 hq).1, mem_keptOf.2 ⟨h.init_lt hn, h.init_not_dead⟩, ?_, ?_⟩
  · intro q _ t ht; rw [h.no_eps] at ht; simp at ht
  · intro q hq i t ht
    have h1 := h.tr_ok hn (mem_keptOf.1 hq).1 ht
    have := h.le
    exact mem_keptOf.2 ⟨by omega, h1.2⟩

theorem names (h : ElimFacts n m D) (hn : n.WF) :
    ((keptOf m.states.length D).map (fun q => (m.state q).name)).Nodup := by
  rw [List.nodup_map_iff_inj_on (keptOf_nodup _ _)]
  have hold : ∀ x y, x < n.states.length → y < n.states.length → (m.state x).name = (m.state y).name → x = y := by
    intro x y hx hy hxy
    rw [(h.old x hx).1, (h.old y hy).1] at hxy
    have m1 : (n.states.map (·.name))[x]? = some (n.state x).name := by simp [getElem?_state hx]
    have m2 : (n.states.map (·.name))[y]? = some (n.state x).name := by simp [getElem?_state hy, hxy]
    exact (List.getElem?_inj (by simpa using hx) hn.names_nodup).1 (m1.trans m2.symm)
  have hnew : ∀ x, x < n.states.length → x ∉ D → ∀ y, ¬ y < n.states.length → y < m.states.length →
      (m.state x).name ≠ (m.state y).name := by
    intro x hx hxD y hy1 hy2 hxy
    rcases h.init with ⟨h1, _⟩ | ⟨h1, _, _, _, _, _, h7⟩
    · omega
    · have : y = n.states.length := by omega
      subst this
      rw [(h.old x hx).1] at hxy
      rcases h7 with ⟨h8, h9⟩ | ⟨h8, _⟩
      · rw [h8, ← (h.old x hx).1, ← (h.old _ hn.init_lt).1] at hxy
        have := hold x n.initialState hx hn.init_lt hxy
        subst this; exact hxD h9
      · have := (freshName_spec (n.states.map (·.name)) sNew).1
        rw [← h8, ← hxy] at this
        exact this (List.mem_map.2 ⟨_, state_mem hx, rfl⟩)
  intro x hx y hy hxy
  obtain ⟨hx1, hx2⟩ := mem_keptOf.1 hx
  obtain ⟨hy1, hy2⟩ := mem_keptOf.1 hy
  by_cases hxn : x < n.states.length
  · by_cases hyn : y < n.states.length
    · exact hold x y hxn hyn hxy
    · exact absurd hxy (hnew x hxn hx2 y hyn hy1)
  · by_cases hyn : y < n.states.length
    · exact absurd hxy.symm (hnew y hyn hy2 x hxn hx1)
    · rcases h.init with ⟨h1, _⟩ | ⟨h1, _⟩ <;> omega

theorem row_len (h : ElimFacts n m D) {q : Nat} (hq : q < m.states.length) :
    (m.state q).transitions.length = m.alphabet.length := by
  rw [h.alph]
  by_cases hq2 : q < n.states.length
  · exact (h.old q hq2).2.2.2.1
  · rcases h.init with ⟨h1, _⟩ | ⟨h1, _, _, h4, _⟩
    · omega
    · have : q = n.states.length := by omega
      subst this; exact h4

theorem restr_wf (h : ElimFacts n m D) (hn : n.WF) : (m.restr (keptOf m.states.length D)).WF :=
  Nfa.restr_wf (h.restrOk hn) (by rw [h.alph]; exact hn.alphabet_nodup) (h.names hn)
    (fun _ hq => h.row_len (mem_keptOf.1 hq).1) (fun q hq => h.flags q (mem_keptOf.1 hq).1)

theorem restr_lang (h : ElimFacts n m D) (hn : n.WF) (w : Word) :
    (m.restr (keptOf m.states.length D)).Lang w ↔ n.Lang w := by
  rw [Nfa.restr_lang (h.restrOk hn), h.lang hn]

end ElimFacts

theorem modify_state {sts : List NfaState} {i : Nat} {f : NfaState → NfaState} {q : Nat} (hq : q < sts.length) :
    (sts.modify i f).getD q default = if i = q then f (sts.getD q default) else sts.getD q default := by
  apply getD_eq_of_getElem?
  rw [List.getElem?_modify, getElem?_of_lt default hq]
  split <;> simp_all

/-- Filtering dead states out of all transitions. -/
def noDead (D : List Nat) (sts : List NfaState) : List NfaState :=
  sts.map (fun s => { s with transitions := s.transitions.map (fun ts => ts.filter (· ∉ D)) })

theorem noDead_state {D : List Nat} {sts : List NfaState} {q : Nat} (hq : q < sts.length) :
    (noDead D sts).getD q default = { sts.getD q default with
      transitions := (sts.getD q default).transitions.map (fun ts => ts.filter (· ∉ D)) } := by
  apply getD_eq_of_getElem?
  simp only [noDead, List.getElem?_map, getElem?_of_lt default hq, Option.map_some]

theorem mem_noDead_tr {D : List Nat} {rows : List (List Nat)} {c t : Nat} :
    t ∈ (rows.map (fun ts => ts.filter (· ∉ D))).getD c [] ↔ t ∉ D ∧ t ∈ rows.getD c [] := by
  by_cases hc : c < rows.length
  · rw [getD_eq_of_getElem? (a := (rows.getD c []).filter (· ∉ D)) (by simp [hc])]
    rw [List.mem_filter]
    simp [and_comm]
  · simp [hc]

/-- The states below `n.states.length` of `sts` are those of `n` with closures inlined. -/
structure Inl (n : Nfa) (sts : List NfaState) : Prop where
  le : n.states.length ≤ sts.length
  old : ∀ q < n.states.length, (sts.getD q default).name = (n.state q).name ∧
    (sts.getD q default).accepting = (n.state q).accepting ∧
    (sts.getD q default).epsilonTransitions = [] ∧ (sts.getD q default).transitions.length = n.alphabet.length ∧
    ∀ c t, t ∈ (sts.getD q default).transitions.getD c [] ↔ ∃ u ∈ n.tr q c, n.EpsR u t

theorem Inl.dead {sts : List NfaState} (h : Inl n sts) (hl : sts.length = n.states.length) {D : List Nat}
    (hD : DeadInv sts D) : ∀ x ∈ D, (n.state x).accepting = false ∧
      ∀ c, ∀ u ∈ n.tr x c, ∀ t, n.EpsR u t → t ∈ D := by
  intro x hx
  have hxn : x < n.states.length := by rw [← hl]; exact hD.lt x hx
  refine ⟨by rw [← (h.old x hxn).2.1]; exact hD.nacc x hx, ?_⟩
  intro c u hu t ht
  exact mem_transitions_iff.1 (hD.step x hx) c t (((h.old x hxn).2.2.2.2 c t).2 ⟨u, hu, ht⟩)

theorem noDead_length {D : List Nat} {sts : List NfaState} : (noDead D sts).length = sts.length := by simp [noDead]

theorem elimFacts_mk {sts : List NfaState} {D : List Nat} {ini : Nat} (h : Inl n sts) (h1 : D.Pairwise (· < ·))
    (h2 : ∀ x ∈ D, x < n.states.length)
    (h3 : ∀ x ∈ D, (n.state x).accepting = false ∧ ∀ c, ∀ u ∈ n.tr x c, ∀ t, n.EpsR u t → t ∈ D)
    (h4 : ∀ q < n.states.length, q ∉ D → (n.state q).accepting = true ∨ q = ini ∨
      ∃ c t, t ∈ (sts.getD q default).transitions.getD c [] ∧ t ∉ D)
    (h5 : ∀ q < sts.length, ((sts.getD q default).initial = true ↔ q = ini))
    (h6 : (sts.length = n.states.length ∧ ini = n.initialState ∧ n.initialState ∉ D ∧
        ∀ p, n.EpsR n.initialState p → p = n.initialState ∨ p ∈ D) ∨
      (sts.length = n.states.length + 1 ∧ ini = n.states.length ∧
        (sts.getD n.states.length default).epsilonTransitions = [] ∧
        (sts.getD n.states.length default).transitions.length = n.alphabet.length ∧
        ((sts.getD n.states.length default).accepting = true ↔
          ∃ p, n.EpsR n.initialState p ∧ (n.state p).accepting = true) ∧
        (∀ c t, t ∉ D → (t ∈ (sts.getD n.states.length default).transitions.getD c [] ↔
          ∃ p u, n.EpsR n.initialState p ∧ u ∈ n.tr p c ∧ n.EpsR u t)) ∧
        (((sts.getD n.states.length default).name = (n.state n.initialState).name ∧ n.initialState ∈ D) ∨
          ((sts.getD n.states.length default).name = freshName (n.states.map (·.name)) sNew ∧
            n.initialState ∉ D)))) :
    ElimFacts n { n with states := noDead D sts, initialState := ini } D := by
  have hst : ∀ q < sts.length, ({ n with states := noDead D sts, initialState := ini } : Nfa).state q =
      { sts.getD q default with
        transitions := (sts.getD q default).transitions.map (fun ts => ts.filter (· ∉ D)) } :=
    fun q hq => noDead_state hq
  have htr : ∀ q < sts.length, ∀ c t, t ∈ ({ n with states := noDead D sts, initialState := ini } : Nfa).tr q c ↔
      t ∉ D ∧ t ∈ (sts.getD q default).transitions.getD c [] := by
    intro q hq c t
    rw [tr, hst q hq]; exact mem_noDead_tr
  have hle := h.le
  refine ⟨rfl, h1, h2, by rw [noDead_length]; exact hle, ?_, h3, ?_, ?_, ?_⟩
  · intro q hq
    have hq' : q < sts.length := by omega
    rw [hst q hq']
    obtain ⟨o1, o2, o3, o4, o5⟩ := h.old q hq
    refine ⟨o1, o2, o3, by simpa using o4, ?_⟩
    intro c t
    rw [htr q hq', o5]
  · intro q hq hqD
    rcases h4 q hq hqD with h | h | ⟨c, t, h⟩
    · exact Or.inl h
    · exact Or.inr (Or.inl h)
    · exact Or.inr (Or.inr ⟨c, t, (htr q (by omega) c t).2 ⟨h.2, h.1⟩⟩)
  · intro q hq
    have hq' : q < sts.length := by simpa [noDead_length] using hq
    rw [hst q hq']
    exact h5 q hq'
  · simp only [noDead_length]
    rcases h6 with h6 | ⟨g1, g2, g3, g4, g5, g6, g7⟩
    · exact Or.inl h6
    · right
      rw [hst _ (by omega)]
      refine ⟨g1, g2, g3, by simpa using g4, g5, ?_, g7⟩
      intro c t
      rw [htr _ (by omega)]
      exact and_congr_right (fun hD => g6 c t hD)

theorem removeEpsilonMoves_eq (hord : ∀ s c l, (ordT s c l).Perm l) {ordDead : List Nat → List Nat}
    (hordD : ∀ l, (ordDead l).Perm l) (hn : n.WF) (he : n.hasEpsilonMoves = true) :
    ∃ m D, n.removeEpsilonMoves ordT ordDead = some (m.restr (keptOf m.states.length D)) ∧ ElimFacts n m D ∧ ElimExact n m D := by
  have hlen := inlined_length (ordT := ordT) (n := n)
  have hI : Inl n (inlined ordT n) := by
    refine ⟨by rw [hlen], ?_⟩
    intro q hq
    refine ⟨by rw [inlined_state hq], by rw [inlined_state hq], by rw [inlined_state hq], ?_,
      fun c t => inlined_tr hord hn hq⟩
    rw [inlined_state hq]
    simpa using hn.row_len _ (state_mem hq)
  have hflag : ∀ q < n.states.length, (((inlined ordT n).getD q default).initial = true ↔ q = n.initialState) := by
    intro q hq
    rw [inlined_state hq]
    exact hn.init_flag q (n.state q) (getElem?_state hq)
  -- the first search
  obtain ⟨D, hD1, hD2, _, hD4, hD5⟩ := deadLoop_spec (sts := inlined ordT n) (n.states.length + 1) [] (deadInv_nil _)
    (by rw [hlen]; omega)
  have hDlt : ∀ x ∈ D, x < n.states.length := by rw [← hlen]; exact hD2.lt
  have hdeadD := hI.dead hlen hD2
  have hinitD : n.initialState ∉ D := by
    intro hc
    rcases hD4 _ hc with h | h
    · simp at h
    · rw [Bool.eq_false_iff] at h
      exact h ((hflag _ hn.init_lt).2 rfl)
  have hliveD : ∀ q < n.states.length, q ∉ D → (n.state q).accepting = true ∨ q = n.initialState ∨
      ∃ c t, t ∈ ((inlined ordT n).getD q default).transitions.getD c [] ∧ t ∉ D := by
    intro q hq hqD
    have := hD5 q (by rw [hlen]; exact hq)
    rw [← Bool.not_eq_true, isDead_iff] at this
    by_cases ha : (n.state q).accepting = true
    · exact Or.inl ha
    · by_cases hi : q = n.initialState
      · exact Or.inr (Or.inl hi)
      · right; right
        by_contra hc
        push Not at hc
        refine this ⟨hqD, by rw [(hI.old q hq).2.1]; simpa using ha, ?_, mem_transitions_iff.2 hc⟩
        rw [Bool.eq_false_iff]; exact fun h => hi ((hflag q hq).1 h)
  have hexact : ∀ x ∈ D, n.DeadR false x := by
    refine deadLoop_least ?_ _ [] D (by simp) hD1
    intro i hi h1 h2 h3
    have hi' : i < n.states.length := by rw [← hlen]; exact hi
    refine .mk i hi' (by rw [← (hI.old i hi').2.1]; exact h1) (fun _ hc => ?_) ?_
    · rw [(hflag i hi').2 hc] at h2; cases h2
    · intro c u t hu ht
      exact mem_transitions_iff.1 h3 c t (((hI.old i hi').2.2.2.2 c t).2 ⟨u, hu, ht⟩)
  have hall : ∀ q, n.DeadR false q → q ∈ D := by
    intro q hq
    induction hq with
    | mk q h1 h2 h3 _ ih =>
      by_contra hc
      rcases hliveD q h1 hc with h | h | ⟨c, t, h, h'⟩
      · rw [h2] at h; cases h
      · exact h3 rfl h
      · obtain ⟨u, g1, g2⟩ := ((hI.old q h1).2.2.2.2 c t).1 h
        exact h' (ih c u t g1 g2)
  have hremove : ∀ (m : Nfa) (D : List Nat), ElimFacts n m D →
      m.removeStates (ordDead D) = some (m.restr (keptOf m.states.length D)) := by
    intro m D h
    have hk : keptOf m.states.length (ordDead D) = keptOf m.states.length D := keptOf_congr (fun x => (hordD D).mem_iff)
    have hr := h.restrOk hn
    rw [← hk] at hr ⊢
    refine removeStates_restr ((hordD D).nodup_iff.2 (sorted_nodup h.Dsorted)) ?_ hr
    intro i hi
    have := h.Dlt i ((hordD D).mem_iff.1 hi)
    have := h.le
    omega
  have hicl : ∀ p, p ∈ (n.closures.getD n.initialState []).filter (· ∉ D) ↔ n.EpsR n.initialState p ∧ p ∉ D := by
    intro p
    rw [List.mem_filter, mem_closures hn hn.init_lt]; simp
  unfold removeEpsilonMoves
  rw [he]
  simp only [Bool.not_true, Bool.false_eq_true, if_false]
  have hinl : (n.states.zipIdx.map (fun p : NfaState × Nat => { p.1 with
      transitions := p.1.transitions.zipIdx.map (fun q =>
        ordT p.2 q.2 (q.1.foldl (fun set t => sextend set (((List.range n.states.length).filterMap n.closure).getD t [])) []))
      epsilonTransitions := [] })) = inlined ordT n := rfl
  have hcls : (List.range n.states.length).filterMap n.closure = n.closures := rfl
  rw [hinl, hcls, hD1]
  simp only [Option.bind_eq_bind, Option.bind_some]
  by_cases hlong : ((n.closures.getD n.initialState []).filter (· ∉ D)).length > 1
  · rw [if_pos hlong]
    have hother : ∃ p, n.EpsR n.initialState p ∧ p ≠ n.initialState ∧ ¬ n.DeadR false p := by
      obtain ⟨r, hr1, hr2, hr3⟩ := closure_spec hn hn.init_lt
      have hcl : n.closures.getD n.initialState [] = r := closures_getD hn hn.init_lt hr1
      have hnd : ((n.closures.getD n.initialState []).filter (· ∉ D)).Nodup := by
        rw [hcl]; exact (sorted_nodup hr2).filter _
      by_contra hc
      have : ∀ p ∈ (n.closures.getD n.initialState []).filter (· ∉ D), p = n.initialState := by
        intro p hp
        by_contra hne
        exact hc ⟨p, ((hicl p).1 hp).1, hne, fun h => ((hicl p).1 hp).2 (hall p h)⟩
      generalize (n.closures.getD n.initialState []).filter (· ∉ D) = l at *
      match l, hlong, hnd, this with
      | a :: b :: l, _, hnd, this =>
        have h1 := this a (by simp)
        have h2 := this b (by simp)
        rw [h1, h2] at hnd
        simp at hnd
    clear hlong
    generalize (n.closures.getD n.initialState []).filter (· ∉ D) = icl at *
    -- the states with the old initial flag cleared
    generalize hs2 : (inlined ordT n).modify n.initialState (fun s => { s with initial := false }) = sts2
    have hst2 : ∀ q < n.states.length, sts2.getD q default = if n.initialState = q then
        { (inlined ordT n).getD q default with initial := false } else (inlined ordT n).getD q default := by
      intro q hq
      rw [← hs2, modify_state (by rw [hlen]; exact hq)]
    have hlen2 : sts2.length = n.states.length := by rw [← hs2, List.length_modify, hlen]
    have hacc2 : ∀ q < n.states.length, (sts2.getD q default).accepting = (n.state q).accepting := by
      intro q hq
      rw [hst2 q hq]; split <;> exact (hI.old q hq).2.1
    have htr2 : ∀ q < n.states.length,
        (sts2.getD q default).transitions = ((inlined ordT n).getD q default).transitions := by
      intro q hq
      rw [hst2 q hq]; split <;> rfl
    have hI2 : Inl n sts2 := by
      refine ⟨by omega, ?_⟩
      intro q hq
      obtain ⟨o1, o2, o3, o4, o5⟩ := hI.old q hq
      refine ⟨?_, hacc2 q hq, ?_, by rw [htr2 q hq]; exact o4, by rw [htr2 q hq]; exact o5⟩
      · rw [hst2 q hq]; split <;> exact o1
      · rw [hst2 q hq]; split <;> exact o3
    have hflag2 : ∀ q < n.states.length, (sts2.getD q default).initial = false := by
      intro q hq
      rw [hst2 q hq]
      split
      · rfl
      · rename_i h
        rw [Bool.eq_false_iff]; exact fun h2 => h ((hflag q hq).1 h2).symm
    have hDI2 : DeadInv sts2 D := by
      refine ⟨hD2.sorted, by rw [hlen2]; exact hDlt, ?_, ?_⟩
      · intro x hx; rw [hacc2 x (hDlt x hx)]; exact (hdeadD x hx).1
      · intro x hx; rw [htr2 x (hDlt x hx)]; exact hD2.step x hx
    have hnames2 : sts2.map (·.name) = n.states.map (·.name) := by
      apply List.ext_getElem?
      intro q
      by_cases hq : q < n.states.length
      · rw [List.getElem?_map, List.getElem?_map, getElem?_of_lt default (by omega : q < sts2.length), getElem?_state hq]
        simp only [Option.map_some, (hI2.old q hq).1]
      · rw [List.getElem?_eq_none (by simpa [hlen2] using hq), List.getElem?_eq_none (by simpa using hq)]
    -- the second search
    generalize hod : (!(sts2.getD n.initialState default).accepting &&
        (sts2.getD n.initialState default).transitions.all (fun ts => ts.all (· ∈ D))) = od
    have hsecond : ∃ D', (if od = true then deadLoop sts2 (n.states.length + 1) (sins n.initialState D) else some D) =
        some D' ∧ DeadInv sts2 D' ∧ (∀ x ∈ D, x ∈ D') ∧ (od = true → n.initialState ∈ D') ∧
        (od = false → n.initialState ∉ D') ∧
        (∀ q < n.states.length, q ∉ D' → (n.state q).accepting = true ∨
          ∃ c t, t ∈ (sts2.getD q default).transitions.getD c [] ∧ t ∉ D') ∧ ∀ x ∈ D', n.DeadR true x := by
      have hmono : ∀ x, n.DeadR false x → n.DeadR true x := by
        intro x hx
        induction hx with
        | mk q h1 h2 _ _ ih => exact .mk q h1 h2 (by simp) ih
      cases od with
      | true =>
        have hod' : (sts2.getD n.initialState default).accepting = false ∧
            ∀ ts ∈ (sts2.getD n.initialState default).transitions, ∀ t ∈ ts, t ∈ D := by
          simpa using hod
        have hins := hDI2.insert (by rw [hlen2]; exact hn.init_lt) hod'.1 hod'.2
        obtain ⟨D', e1, e2, e3, _, e5⟩ := deadLoop_spec (sts := sts2) (n.states.length + 1) _ hins (by omega)
        refine ⟨D', by rw [if_pos rfl]; exact e1, e2, fun x hx => e3 x (mem_sins.2 (Or.inr hx)),
          fun _ => e3 _ (mem_sins.2 (Or.inl rfl)), by simp, ?_, ?_⟩
        rotate_left
        · refine deadLoop_least ?_ _ _ D' ?_ e1
          · intro i hi h1 _ h3
            have hi' : i < n.states.length := by omega
            refine .mk i hi' (by rw [← hacc2 i hi']; exact h1) (by simp) ?_
            intro c u t hu ht
            exact mem_transitions_iff.1 h3 c t (((hI2.old i hi').2.2.2.2 c t).2 ⟨u, hu, ht⟩)
          · intro x hx
            rcases mem_sins.1 hx with rfl | hx
            · refine .mk _ hn.init_lt (by rw [← hacc2 _ hn.init_lt]; exact hod'.1) (by simp) ?_
              intro c u t hu ht
              exact hmono t (hexact t (mem_transitions_iff.1 hod'.2 c t (((hI2.old _ hn.init_lt).2.2.2.2 c t).2 ⟨u, hu, ht⟩)))
            · exact hmono x (hexact x hx)
        intro q hq hqD
        have := e5 q (by omega)
        rw [← Bool.not_eq_true, isDead_iff] at this
        by_cases ha : (n.state q).accepting = true
        · exact Or.inl ha
        · right
          by_contra hc
          push Not at hc
          exact this ⟨hqD, by rw [hacc2 q hq]; simpa using ha, hflag2 q hq, mem_transitions_iff.2 hc⟩
      | false =>
        refine ⟨D, by simp, hDI2, fun x hx => hx, by simp, fun _ => hinitD, ?_, fun x hx => hmono x (hexact x hx)⟩
        intro q hq hqD
        rcases hliveD q hq hqD with h | h | h
        · exact Or.inl h
        · subst h
          by_cases ha : (n.state n.initialState).accepting = true
          · exact Or.inl ha
          · right
            rw [hacc2 _ hq] at hod
            by_contra hc
            push Not at hc
            have h1 := mem_transitions_iff.2 hc
            rw [Bool.not_eq_true] at ha
            rw [ha] at hod
            simp only [Bool.not_false, Bool.true_and, List.all_eq_false] at hod
            obtain ⟨ts, g1, g2⟩ := hod
            apply g2
            simpa using h1 ts g1
        · right; rw [htr2 q hq]; exact h
    obtain ⟨D', e1, e2, e3, e4, e5, e6, e7⟩ := hsecond
    have hdead' := hI2.dead hlen2 e2
    have hDlt' : ∀ x ∈ D', x < n.states.length := by rw [← hlen2]; exact e2.lt
    have hicl_lt : ∀ p ∈ icl, p < n.states.length := fun p hp => ((hicl p).1 hp).1.lt hn hn.init_lt
    have hfacts : ElimFacts n { n with
        states := noDead D' (sts2 ++ [{
          name := if od = true then (sts2.getD n.initialState default).name
            else freshName (sts2.map (·.name)) sNew
          initial := true
          accepting := icl.any (fun i => (sts2.getD i default).accepting)
          epsilonTransitions := []
          transitions := (List.range n.alphabet.length).map (fun c =>
            (ordT n.states.length c (icl.foldl (fun set s =>
              sextend set ((sts2.getD s default).transitions.getD c [])) [])).filter (· ∉ D')) }])
        initialState := sts2.length } D' := by
      generalize hnew : ({
          name := if od = true then (sts2.getD n.initialState default).name
            else freshName (sts2.map (·.name)) sNew
          initial := true
          accepting := icl.any (fun i => (sts2.getD i default).accepting)
          epsilonTransitions := []
          transitions := (List.range n.alphabet.length).map (fun c =>
            (ordT n.states.length c (icl.foldl (fun set s =>
              sextend set ((sts2.getD s default).transitions.getD c [])) [])).filter (· ∉ D')) } : NfaState) = new
      have hs : ∀ q < n.states.length, (sts2 ++ [new]).getD q default = sts2.getD q default := by
        intro q hq
        apply getD_eq_of_getElem?
        rw [List.getElem?_append_left (by omega), getElem?_of_lt default (by omega)]
      have hsN : (sts2 ++ [new]).getD n.states.length default = new := by
        apply getD_eq_of_getElem?
        rw [List.getElem?_append_right (by omega), hlen2]; simp
      refine elimFacts_mk ⟨by simp; omega, ?_⟩ e2.sorted hDlt' hdead' ?_ ?_ (Or.inr ⟨by simp [hlen2], hlen2, ?_⟩)
      · intro q hq
        rw [hs q hq]; exact hI2.old q hq
      · intro q hq hqD
        rw [hs q hq]
        rcases e6 q hq hqD with h | h
        · exact Or.inl h
        · exact Or.inr (Or.inr h)
      · intro q hq
        by_cases hqn : q < n.states.length
        · rw [hs q hqn, hflag2 q hqn]
          simp; omega
        · have : q = n.states.length := by simp at hq; omega
          subst this
          rw [hsN, ← hnew]; simp [hlen2]
      · rw [hsN, ← hnew]
        refine ⟨rfl, by simp, ?_, ?_, ?_⟩
        · simp only [List.any_eq_true]
          constructor
          · rintro ⟨p, h1, h2⟩
            refine ⟨p, ((hicl p).1 h1).1, ?_⟩
            rw [← hacc2 p (hicl_lt p h1)]; exact h2
          · rintro ⟨p, h1, h2⟩
            refine ⟨p, (hicl p).2 ⟨h1, ?_⟩, ?_⟩
            · intro hc; rw [(hdeadD p hc).1] at h2; exact absurd h2 (by simp)
            · rw [hacc2 p (h1.lt hn hn.init_lt)]; exact h2
        · intro c t htD
          by_cases hc : c < n.alphabet.length
          · rw [getD_eq_of_getElem? (a := (ordT n.states.length c (icl.foldl (fun set s =>
              sextend set ((sts2.getD s default).transitions.getD c [])) [])).filter (· ∉ D')) (by simp [hc]),
              List.mem_filter, (hord _ _ _).mem_iff, mem_foldl_sextend]
            simp only [List.not_mem_nil, false_or, decide_eq_true_eq, htD, not_false_eq_true, and_true]
            constructor
            · rintro ⟨p, h1, h2⟩
              obtain ⟨u, h3, h4⟩ := ((hI2.old p (hicl_lt p h1)).2.2.2.2 c t).1 h2
              exact ⟨p, u, ((hicl p).1 h1).1, h3, h4⟩
            · rintro ⟨p, u, h1, h3, h4⟩
              have hpD : p ∉ D := fun hc => htD (e3 t ((hdeadD p hc).2 c u h3 t h4))
              exact ⟨p, (hicl p).2 ⟨h1, hpD⟩, ((hI2.old p (h1.lt hn hn.init_lt)).2.2.2.2 c t).2 ⟨u, h3, h4⟩⟩
          · constructor
            · intro h; simp [hc] at h
            · rintro ⟨p, u, h1, h3, _⟩
              have hp := h1.lt hn hn.init_lt
              have := hn.row_len _ (state_mem hp)
              simp [tr, this, hc] at h3
        · cases od with
          | true => exact Or.inl ⟨by rw [if_pos rfl]; exact (hI2.old _ hn.init_lt).1, e4 rfl⟩
          | false => exact Or.inr ⟨by simp only [Bool.false_eq_true, if_false]; rw [hnames2], e5 rfl⟩
    refine ⟨_, D', ?_, hfacts, ⟨fun h => ?_, fun _ => ⟨e7, hother⟩⟩⟩
    rotate_left
    · simp [noDead_length, hlen2] at h
    rw [← hremove _ D' hfacts]
    cases od with
    | true =>
      rw [if_pos rfl] at e1
      rw [if_pos rfl, e1]; rfl
    | false =>
      simp only [Bool.false_eq_true, if_false, Option.some.injEq] at e1
      subst e1; rfl
  · rw [if_neg hlong]
    have hfacts : ElimFacts n { n with states := noDead D (inlined ordT n), initialState := n.initialState } D := by
      refine elimFacts_mk hI hD2.sorted hDlt hdeadD hliveD (by rw [hlen]; exact hflag) (Or.inl ⟨hlen, rfl, hinitD, ?_⟩)
      intro p hp
      by_cases hpD : p ∈ D
      · exact Or.inr hpD
      · left
        have h1 := (hicl p).2 ⟨hp, hpD⟩
        have h2 := (hicl n.initialState).2 ⟨.refl, hinitD⟩
        generalize (n.closures.getD n.initialState []).filter (· ∉ D) = l at *
        match l, hlong, h1, h2 with
        | [a], _, h1, h2 => simp only [List.mem_singleton] at h1 h2; rw [h1, h2]
        | a :: b :: l, hl, _, _ => simp at hl
    refine ⟨_, D, hremove _ D hfacts, hfacts, ⟨fun _ => hexact, fun h => ?_⟩⟩
    simp [noDead_length, hlen] at h

end Nfa
end Dandy
