import Verif.Proofs.NfaUnion
/-! # Product construction of NFAs: lemmas -/

namespace Dandy
namespace Nfa

variable {n o : Nfa}

/-! ## Moves of one component -/

/-- A move of one component by an element: `none` means stuck. -/
def MoveO (n : Nfa) (e : Str) : Option Nat → Option Nat → Prop
  | some r, some t => n.Step r e t
  | some r, none => ∀ t, ¬ n.Step r e t
  | none, none => True
  | none, some _ => False

/-- Epsilon moves of one component. -/
def EpsO (n : Nfa) : Option Nat → Option Nat → Prop
  | some r, some t => n.EpsR r t
  | none, none => True
  | _, _ => False

/-- What one component can have become after reading a word, starting in `q`: a state reached by a run, or `none`
after a run got stuck. -/
def OutFrom (n : Nfa) : Option Nat → Word → Option Nat → Prop
  | some q, w, some r => n.Path q w r
  | some q, w, none => ∃ u e v r, w = u ++ e :: v ∧ n.Path q u r ∧ ∀ t, ¬ n.Step r e t
  | none, _, none => True
  | none, _, some _ => False

theorem outFrom_nil {x a : Option Nat} : n.OutFrom x [] a ↔ n.EpsO x a := by
  cases x <;> cases a <;> simp [OutFrom, EpsO, path_nil_iff]

theorem outFrom_cons {x a : Option Nat} {e : Str} {w : Word} :
    n.OutFrom x (e :: w) a ↔ ∃ y z, n.EpsO x y ∧ n.MoveO e y z ∧ n.OutFrom z w a := by
  cases x with
  | none =>
    cases a with
    | none =>
      simp only [OutFrom, true_iff]
      exact ⟨none, none, trivial, trivial, trivial⟩
    | some r =>
      simp only [OutFrom, false_iff]
      rintro ⟨y, z, h1, h2, h3⟩
      cases y with
      | some y => exact h1
      | none => cases z with
        | some z => exact h2
        | none => exact h3
  | some q =>
    cases a with
    | some r =>
      simp only [OutFrom, path_cons_iff]
      constructor
      · rintro ⟨p, t, h1, h2, h3⟩; exact ⟨some p, some t, h1, h2, h3⟩
      · rintro ⟨y, z, h1, h2, h3⟩
        cases z with
        | none => exact h3.elim
        | some z => cases y with
          | none => exact h1.elim
          | some y => exact ⟨y, z, h1, h2, h3⟩
    | none =>
      simp only [OutFrom]
      constructor
      · rintro ⟨u, e', v, r, h1, h2, h3⟩
        cases u with
        | nil =>
          simp only [List.nil_append, List.cons.injEq] at h1
          obtain ⟨rfl, rfl⟩ := h1
          exact ⟨some r, none, path_nil_iff.1 h2, h3, trivial⟩
        | cons c u =>
          simp only [List.cons_append, List.cons.injEq] at h1
          obtain ⟨rfl, rfl⟩ := h1
          obtain ⟨p, t, h4, h5, h6⟩ := path_cons_iff.1 h2
          exact ⟨some p, some t, h4, h5, u, e', v, r, rfl, h6, h3⟩
      · rintro ⟨y, z, h1, h2, h3⟩
        cases y with
        | none => exact h1.elim
        | some y =>
          cases z with
          | none => exact ⟨[], e, w, y, rfl, path_nil_iff.2 h1, h2⟩
          | some z =>
            obtain ⟨u, e', v, r, rfl, h5, h6⟩ := h3
            exact ⟨e :: u, e', v, r, rfl, path_cons_iff.2 ⟨y, z, h1, h2, h5⟩, h6⟩

theorem outFrom_eps {x y a : Option Nat} {w : Word} (h : n.EpsO x y) (h2 : n.OutFrom y w a) : n.OutFrom x w a := by
  have htrans : ∀ {x y z : Option Nat}, n.EpsO x y → n.EpsO y z → n.EpsO x z := by
    intro x y z h1 h2
    cases x <;> cases y <;> cases z <;> simp_all [EpsO]
    exact Relation.ReflTransGen.trans h1 h2
  cases w with
  | nil => rw [outFrom_nil] at h2 ⊢; exact htrans h h2
  | cons e w =>
    rw [outFrom_cons] at h2 ⊢
    obtain ⟨p, z, h3, h4, h5⟩ := h2
    exact ⟨p, z, htrans h h3, h4, h5⟩

/-! ## Moves of pairs -/

/-- A move of a pair by an element. -/
def PStep (n o : Nfa) (e : Str) (p p' : OPair) : Prop :=
  n.MoveO e p.1 p'.1 ∧ o.MoveO e p.2 p'.2 ∧ p' ≠ (none, none)

/-- Paths of pairs. -/
inductive PPath (n o : Nfa) : OPair → Word → OPair → Prop
  | nil (p : OPair) : PPath n o p [] p
  | eps {p p' r : OPair} {w : Word} : p' ∈ pairEps n o p → PPath n o p' w r → PPath n o p w r
  | step {p p' r : OPair} {e : Str} {w : Word} : PStep n o e p p' → PPath n o p' w r → PPath n o p (e :: w) r

theorem mem_pairEps {p p' : OPair} : p' ∈ pairEps n o p ↔
    (∃ q t, p.1 = some q ∧ t ∈ n.ep q ∧ p' = (some t, p.2)) ∨
    (∃ q t, p.2 = some q ∧ t ∈ o.ep q ∧ p' = (p.1, some t)) := by
  unfold pairEps ep
  rw [List.mem_append]
  obtain ⟨a, b⟩ := p
  constructor
  · rintro (h | h)
    · left
      cases a with
      | none => simp at h
      | some q => obtain ⟨t, h1, rfl⟩ := List.mem_map.1 h; exact ⟨q, t, rfl, h1, rfl⟩
    · right
      cases b with
      | none => simp at h
      | some q => obtain ⟨t, h1, rfl⟩ := List.mem_map.1 h; exact ⟨q, t, rfl, h1, rfl⟩
  · rintro (⟨q, t, h1, h2, rfl⟩ | ⟨q, t, h1, h2, rfl⟩)
    · left; simp only at h1; subst h1; exact List.mem_map.2 ⟨t, h2, rfl⟩
    · right; simp only at h1; subst h1; exact List.mem_map.2 ⟨t, h2, rfl⟩

theorem ppath_out {p p' : OPair} {w : Word} (h : PPath n o p w p') (hp : p ≠ (none, none)) :
    n.OutFrom p.1 w p'.1 ∧ o.OutFrom p.2 w p'.2 ∧ p' ≠ (none, none) := by
  induction h with
  | nil p =>
    rw [outFrom_nil, outFrom_nil]
    refine ⟨?_, ?_, hp⟩
    · cases p.1 <;> simp [EpsO, EpsR, Relation.ReflTransGen.refl]
    · cases p.2 <;> simp [EpsO, EpsR, Relation.ReflTransGen.refl]
  | eps h1 _ ih =>
    rename_i p p' r w _
    rcases mem_pairEps.1 h1 with ⟨q, t, h2, h3, rfl⟩ | ⟨q, t, h2, h3, rfl⟩
    · obtain ⟨i1, i2, i3⟩ := ih (by simp)
      refine ⟨outFrom_eps (y := some t) ?_ i1, i2, i3⟩
      rw [h2]; exact Relation.ReflTransGen.single h3
    · obtain ⟨i1, i2, i3⟩ := ih (by simp)
      refine ⟨i1, outFrom_eps (y := some t) ?_ i2, i3⟩
      rw [h2]; exact Relation.ReflTransGen.single h3
  | step h1 _ ih =>
    obtain ⟨m1, m2, m3⟩ := h1
    obtain ⟨i1, i2, i3⟩ := ih m3
    have hrefl : ∀ (n : Nfa) (x : Option Nat), n.EpsO x x := by
      intro n x; cases x <;> simp [EpsO, EpsR, Relation.ReflTransGen.refl]
    exact ⟨outFrom_cons.2 ⟨_, _, hrefl _ _, m1, i1⟩, outFrom_cons.2 ⟨_, _, hrefl _ _, m2, i2⟩, i3⟩

theorem ppath_epsO {x1 x2 y1 y2 : Option Nat} {w : Word} {p' : OPair} (h1 : n.EpsO x1 y1) (h2 : o.EpsO x2 y2)
    (h : PPath n o (y1, y2) w p') : PPath n o (x1, x2) w p' := by
  have key1 : ∀ y2, PPath n o (y1, y2) w p' → PPath n o (x1, y2) w p' := by
    intro y2 h
    cases x1 with
    | none => cases y1 with
      | none => exact h
      | some _ => exact h1.elim
    | some q => cases y1 with
      | none => exact h1.elim
      | some r =>
        simp only [EpsO] at h1
        induction h1 using Relation.ReflTransGen.head_induction_on with
        | refl => exact h
        | head h3 _ ih => exact .eps (mem_pairEps.2 (Or.inl ⟨_, _, rfl, h3, rfl⟩)) ih
  have key2 : ∀ x1, PPath n o (x1, y2) w p' → PPath n o (x1, x2) w p' := by
    intro x1 h
    cases x2 with
    | none => cases y2 with
      | none => exact h
      | some _ => exact h2.elim
    | some q => cases y2 with
      | none => exact h2.elim
      | some r =>
        simp only [EpsO] at h2
        induction h2 using Relation.ReflTransGen.head_induction_on with
        | refl => exact h
        | head h3 _ ih => exact .eps (mem_pairEps.2 (Or.inr ⟨_, _, rfl, h3, rfl⟩)) ih
  exact key2 _ (key1 _ h)

theorem outFrom_none {w : Word} {a : Option Nat} (h : n.OutFrom none w a) : a = none := by
  cases a with
  | none => rfl
  | some _ => exact h.elim

theorem ppath_of_out {w : Word} {x1 x2 a b : Option Nat} (h1 : n.OutFrom x1 w a) (h2 : o.OutFrom x2 w b)
    (h : (a, b) ≠ (none, none)) : PPath n o (x1, x2) w (a, b) := by
  induction w generalizing x1 x2 with
  | nil =>
    rw [outFrom_nil] at h1 h2
    exact ppath_epsO h1 h2 (.nil _)
  | cons e w ih =>
    obtain ⟨y1, z1, e1, m1, o1⟩ := outFrom_cons.1 h1
    obtain ⟨y2, z2, e2, m2, o2⟩ := outFrom_cons.1 h2
    refine ppath_epsO e1 e2 (.step ⟨m1, m2, ?_⟩ (ih o1 o2))
    intro hc
    simp only [Prod.mk.injEq] at hc
    obtain ⟨rfl, rfl⟩ := hc
    exact h (by rw [outFrom_none o1, outFrom_none o2])

theorem ppath_iff {w : Word} {p p' : OPair} (hp : p ≠ (none, none)) :
    PPath n o p w p' ↔ n.OutFrom p.1 w p'.1 ∧ o.OutFrom p.2 w p'.2 ∧ p' ≠ (none, none) :=
  ⟨fun h => ppath_out h hp, fun h => ppath_of_out h.1 h.2.1 h.2.2⟩

/-! ## The computed targets -/

/-- The translation of columns. -/
def trans (n o : Nfa) : List Nat := n.alphabet.map (fun e => o.alphabet.idxOf e)

theorem liveTargets_some {s : Option Nat} {i : Nat} {l : List Nat} :
    n.liveTargets s i = some l ↔ ∃ q, s = some q ∧ l = n.tr q i ∧ n.tr q i ≠ [] := by
  unfold liveTargets tr
  cases s with
  | none => simp
  | some q =>
    simp only [Option.some.injEq, exists_eq_left']
    split
    · simp_all
    · rename_i h
      constructor
      · intro h2; cases h2; exact ⟨rfl, h⟩
      · rintro ⟨rfl, _⟩; rfl

theorem liveTargets_none {s : Option Nat} {i : Nat} :
    n.liveTargets s i = none ↔ ∀ q, s = some q → n.tr q i = [] := by
  unfold liveTargets tr
  cases s with
  | none => simp
  | some q => simp only [Option.some.injEq, forall_eq']; split <;> simp_all

theorem mem_pairTargets (hn : n.WF) (ho : o.WF) {i j : Nat} {e : Str} (hi : n.alphabet[i]? = some e)
    (hj : o.alphabet[j]? = some e) {p p' : OPair} : p' ∈ pairTargets n o i j p ↔ PStep n o e p p' := by
  have hs1 : ∀ q t, n.Step q e t ↔ t ∈ n.tr q i := by
    intro q t
    rw [step_iff hn, revGet_of_getElem? hn.alphabet_nodup hi]; simp
  have hs2 : ∀ q t, o.Step q e t ↔ t ∈ o.tr q j := by
    intro q t
    rw [step_iff ho, revGet_of_getElem? ho.alphabet_nodup hj]; simp
  have hm : ∀ (m : Nfa) (i : Nat), (∀ q t, m.Step q e t ↔ t ∈ m.tr q i) → ∀ s z,
      m.MoveO e s z ↔ (∃ l, m.liveTargets s i = some l ∧ ∃ t ∈ l, z = some t) ∨ (m.liveTargets s i = none ∧ z = none) := by
    intro m i hs s z
    cases hl : m.liveTargets s i with
    | none =>
      rw [liveTargets_none] at hl
      cases s with
      | none => cases z <;> simp [MoveO]
      | some q =>
        have := hl q rfl
        cases z <;> simp [MoveO, hs, this]
    | some l =>
      obtain ⟨q, rfl, rfl, hne⟩ := liveTargets_some.1 hl
      cases z with
      | none =>
        simp only [MoveO, hs]
        constructor
        · intro h; exact absurd (List.eq_nil_iff_forall_not_mem.2 h) hne
        · rintro (⟨l, _, t, _, h⟩ | ⟨h, _⟩) <;> cases h
      | some t =>
        simp only [MoveO, hs]
        constructor
        · intro h; exact Or.inl ⟨_, rfl, t, h, rfl⟩
        · rintro (⟨l, h1, t', h2, h3⟩ | ⟨h, _⟩)
          · cases h1; cases h3; exact h2
          · cases h
  unfold PStep
  rw [hm n i hs1, hm o j hs2]
  obtain ⟨z1, z2⟩ := p'
  unfold pairTargets
  cases h1 : n.liveTargets p.1 i with
  | none => cases h2 : o.liveTargets p.2 j with
    | none => simp; tauto
    | some l2 =>
      simp only [List.mem_map, Prod.mk.injEq]
      constructor
      · rintro ⟨t, ht, rfl, rfl⟩; exact ⟨Or.inr ⟨trivial, rfl⟩, Or.inl ⟨_, rfl, t, ht, rfl⟩, by simp⟩
      · rintro ⟨(⟨_, h, _⟩ | ⟨_, rfl⟩), (⟨l, h3, t, h4, rfl⟩ | ⟨h, _⟩), _⟩
        · cases h
        · cases h
        · cases h3; exact ⟨t, h4, rfl, rfl⟩
        · cases h
  | some l1 => cases h2 : o.liveTargets p.2 j with
    | none =>
      simp only [List.mem_map, Prod.mk.injEq]
      constructor
      · rintro ⟨t, ht, rfl, rfl⟩; exact ⟨Or.inl ⟨_, rfl, t, ht, rfl⟩, Or.inr ⟨trivial, rfl⟩, by simp⟩
      · rintro ⟨(⟨l, h3, t, h4, rfl⟩ | ⟨h, _⟩), (⟨_, h, _⟩ | ⟨_, rfl⟩), _⟩
        · cases h
        · cases h3; exact ⟨t, h4, rfl, rfl⟩
        · cases h
        · cases h
    | some l2 =>
      simp only [List.mem_flatMap, List.mem_map, Prod.mk.injEq]
      constructor
      · rintro ⟨t1, ht1, t2, ht2, rfl, rfl⟩
        exact ⟨Or.inl ⟨_, rfl, t1, ht1, rfl⟩, Or.inl ⟨_, rfl, t2, ht2, rfl⟩, by simp⟩
      · rintro ⟨(⟨l, h3, t, h4, rfl⟩ | ⟨h, _⟩), (⟨l', h5, t', h6, rfl⟩ | ⟨h, _⟩), _⟩
        · cases h3; cases h5; exact ⟨t, h4, t', h6, rfl, rfl⟩
        all_goals cases h

theorem trans_getD (hs : SameElems n.alphabet o.alphabet) {i : Nat} {e : Str} (hi : n.alphabet[i]? = some e) :
    o.alphabet[(trans n o).getD i 0]? = some e := by
  have : (trans n o).getD i 0 = o.alphabet.idxOf e := by
    apply getD_eq_of_getElem?
    simp only [trans, List.getElem?_map, hi, Option.map_some]
  rw [this]
  exact List.getElem?_idxOf ((hs e).1 (List.mem_of_getElem? hi))

/-- Row of targets of a pair, by column. -/
theorem pairRow_getElem? {p : OPair} {i : Nat} (hi : i < n.alphabet.length) :
    (pairRow n o (trans n o) p)[i]? = some (pairTargets n o i ((trans n o).getD i 0) p) := by
  simp only [pairRow, List.getElem?_map, List.getElem?_range hi, Option.map_some]

/-- One element step or epsilon move. -/
def psucc (n o : Nfa) (p : OPair) : List OPair := (pairRow n o (trans n o) p).flatten ++ pairEps n o p

theorem mem_psucc (hn : n.WF) (ho : o.WF) (hs : SameElems n.alphabet o.alphabet) {p p' : OPair} :
    p' ∈ psucc n o p ↔ (∃ e ∈ n.alphabet, PStep n o e p p') ∨ p' ∈ pairEps n o p := by
  unfold psucc
  rw [List.mem_append]
  apply or_congr_left
  rw [List.mem_flatten]
  constructor
  · rintro ⟨l, hl, hp⟩
    obtain ⟨i, hi⟩ := List.getElem?_of_mem hl
    have hlt : i < n.alphabet.length := by simpa [pairRow] using lt_of_getElem? hi
    have he := List.getElem?_eq_getElem hlt
    rw [pairRow_getElem? hlt, Option.some.injEq] at hi
    subst hi
    exact ⟨_, List.mem_of_getElem? he, (mem_pairTargets hn ho he (trans_getD hs he)).1 hp⟩
  · rintro ⟨e, he, hp⟩
    obtain ⟨i, hi⟩ := List.getElem?_of_mem he
    refine ⟨_, List.mem_of_getElem? (pairRow_getElem? (lt_of_getElem? hi)), ?_⟩
    exact (mem_pairTargets hn ho hi (trans_getD hs hi)).2 hp

/-- All component states in range. -/
def PBound (n o : Nfa) (p : OPair) : Prop :=
  (∀ q, p.1 = some q → q < n.states.length) ∧ (∀ q, p.2 = some q → q < o.states.length)

theorem moveO_lt (hn : n.WF) {e : Str} {x z : Option Nat} (h : n.MoveO e x z) : ∀ q, z = some q → q < n.states.length := by
  rintro q rfl
  cases x with
  | none => exact h.elim
  | some r => obtain ⟨i, _, h2⟩ := h; exact tr_lt hn h2

theorem psucc_bound (hn : n.WF) (ho : o.WF) (hs : SameElems n.alphabet o.alphabet) {p p' : OPair}
    (hp : PBound n o p) (h : p' ∈ psucc n o p) : PBound n o p' := by
  rcases (mem_psucc hn ho hs).1 h with ⟨e, _, h1, h2, _⟩ | h
  · exact ⟨moveO_lt hn h1, moveO_lt ho h2⟩
  · rcases mem_pairEps.1 h with ⟨q, t, _, h3, rfl⟩ | ⟨q, t, _, h3, rfl⟩
    · exact ⟨fun q hq => by cases hq; exact ep_lt hn h3, hp.2⟩
    · exact ⟨hp.1, fun q hq => by cases hq; exact ep_lt ho h3⟩

/-- The initial pair. -/
def pinit (n o : Nfa) : OPair := (some n.initialState, some o.initialState)

/-- The product automaton, given the explored pairs in pop order and the names. -/
def prodN (n o : Nfa) (comb : Option NfaState → Option NfaState → Bool) (ks : List OPair) (g : OPair → Str) : Nfa :=
  { alphabet := n.alphabet
    states := ks.map (fun k =>
      { name := g k
        initial := k == pinit n o
        accepting := comb (k.1.map n.state) (k.2.map o.state)
        transitions := (pairRow n o (trans n o) k).map (fun l => l.map (fun p => ks.idxOf p))
        epsilonTransitions := (pairEps n o k).map (fun p => ks.idxOf p) })
    initialState := ks.idxOf (pinit n o) }

/-- The facts about the list of explored pairs. -/
structure NProdKeys (n o : Nfa) (ks : List OPair) : Prop where
  nodup : ks.Nodup
  mem_iff : ∀ k, k ∈ ks ↔ Relation.ReflTransGen (fun a b => b ∈ psucc n o a) (pinit n o) k

theorem NProdKeys.init {ks : List OPair} (h : NProdKeys n o ks) : pinit n o ∈ ks := (h.mem_iff _).2 .refl

theorem NProdKeys.succ {ks : List OPair} (h : NProdKeys n o ks) {p p' : OPair} (hp : p ∈ ks) (hs : p' ∈ psucc n o p) :
    p' ∈ ks := (h.mem_iff _).2 (((h.mem_iff _).1 hp).tail hs)

/-- The wanted name of a pair. -/
def wanted (n o : Nfa) (p : OPair) : Str :=
  Dfa.pairName ((p.1.map (fun s => (n.state s).name)).getD noneName) ((p.2.map (fun s => (o.state s).name)).getD noneName)

/-- The result of the product construction: the explored pairs do not depend on the iteration order, only the names. -/
theorem product_eq_out (hn : n.WF) (ho : o.WF) (hs : SameElems n.alphabet o.alphabet) :
    ∃ out seen, explore id (psucc n o) (fun _ => true) ((n.states.length + 1) * (o.states.length + 1) + 1) [pinit n o] [pinit n o] [] =
        some (some (out, seen)) ∧ NProdKeys n o out ∧
      ∀ (comb : Option NfaState → Option NfaState → Bool) (ks : List OPair), ks = out → ∀ ord : List OPair → List OPair, (∀ l, (ord l).Perm l) →
      ∃ g, product ord n o comb = some (some (prodN n o comb ks g)) ∧
      (∀ j ∈ ks, ∀ k ∈ ks, g j = g k → j = k) ∧
      ((∀ k ∈ ks, g k = wanted n o k) ∨ ∀ k ∈ ks, ∃ i, g k = numStr i) ∧
      ((∀ j ∈ ks, ∀ k ∈ ks, wanted n o j = wanted n o k → j = k) → ∀ k ∈ ks, g k = wanted n o k) := by
  unfold product
  rw [(alphabetEqual_iff hn.alphabet_nodup ho.alphabet_nodup).2 hs]
  simp only [Bool.not_true, Bool.false_eq_true, if_false]
  rw [alphabetTranslation_eq (fun e he => (hs e).1 he)]
  have hex := explore_spec (key := id) (succ := psucc n o) (ok := fun _ => true) (PBound n o) (s0 := pinit n o)
    ((none :: (List.range n.states.length).map some) ×ˢ (none :: (List.range o.states.length).map some))
    (fuel := (n.states.length + 1) * (o.states.length + 1) + 1)
    ⟨fun q hq => by cases hq; exact hn.init_lt, fun q hq => by cases hq; exact ho.init_lt⟩
    (fun s hs' t ht => psucc_bound hn ho hs hs' ht)
    (fun s t _ _ h => h)
    (by
      rintro ⟨a, b⟩ ⟨h1, h2⟩
      refine List.mem_product.2 ⟨?_, ?_⟩
      · cases a with
        | none => simp
        | some q => simpa using h1 q rfl
      · cases b with
        | none => simp
        | some q => simpa using h2 q rfl)
    (by rw [List.length_product]; simp)
  rcases hex with ⟨_, s, _, h⟩ | ⟨out, seen, he, hE⟩
  · cases h
  have he' : explore id (fun p => (pairRow n o (n.alphabet.map (fun e => o.alphabet.idxOf e)) p).flatten ++ pairEps n o p)
      (fun _ => true) ((n.states.length + 1) * (o.states.length + 1) + 1)
      [(some n.initialState, some o.initialState)] [(some n.initialState, some o.initialState)] [] =
      some (some (out, seen)) := he
  simp only [Option.bind_eq_bind, Option.bind_some, he']
  have hks : NProdKeys n o out := by
    constructor
    · have h1 := hE.keys_nodup
      have h2 := (hE.perm.map id).nodup_iff.1 h1
      simpa using h2
    · intro k; rw [← hE.perm.mem_iff, hE.mem_iff]
  refine ⟨out, seen, he, hks, fun comb ks hk ord hord => ?_⟩
  subst ks
  have hseen : seen.Nodup := by simpa using hE.keys_nodup
  have hordnd : (ord seen).Nodup := (hord _).nodup_iff.2 hseen
  have hlen : (ord seen).length = out.length := by rw [(hord _).length_eq, hE.perm.length_eq]
  have hordmem : ∀ k, k ∈ ord seen ↔ k ∈ out := by intro k; rw [(hord _).mem_iff, hE.perm.mem_iff]
  obtain ⟨g, hg1, hg2, hg3, hg4⟩ := genNames_spec (fun p : OPair => Dfa.pairName
        ((p.1.map (fun s => (n.state s).name)).getD noneName) ((p.2.map (fun s => (o.state s).name)).getD noneName))
        _ hordnd
  rw [hlen] at hg1
  refine ⟨g, ?_, ?_, ?_, ?_⟩
  · simp only [List.map_map, Function.comp_def, List.length_map, List.map_id']
    have hi := Dfa.revGet_eq_idxOf hks.nodup hks.init
    unfold pinit at hi
    rw [hi]
    simp only [Option.bind_some, Option.pure_def]
    rw [mapM_some (g := fun sd : OPair × Bool × List (List OPair) × List OPair =>
      ({ name := g sd.1
         initial := sd.1 == pinit n o
         accepting := sd.2.1
         transitions := sd.2.2.1.map (fun l => l.map (fun p => out.idxOf p))
         epsilonTransitions := sd.2.2.2.map (fun p => out.idxOf p) } : NfaState))]
    · simp only [Option.bind_some, prodN, List.map_map, Function.comp_def]
      rfl
    · intro sd hsd
      obtain ⟨p, hp, rfl⟩ := List.mem_map.1 hsd
      dsimp only
      rw [hg1 p ((hordmem p).2 hp)]
      simp only [Option.bind_some]
      rw [mapM_some (g := fun l : List OPair => l.map (fun p => out.idxOf p))]
      · simp only [Option.bind_some]
        rw [mapM_some (g := fun p => out.idxOf p)]
        · rfl
        · intro p' hp'
          exact Dfa.revGet_eq_idxOf hks.nodup (hks.succ hp (List.mem_append_right _ hp'))
      · intro l hl
        apply mapM_some
        intro p' hp'
        exact Dfa.revGet_eq_idxOf hks.nodup (hks.succ hp (List.mem_append_left _ (List.mem_flatten.2 ⟨l, hl, hp'⟩)))
  · intro j hj k hk; exact hg2 j ((hordmem j).2 hj) k ((hordmem k).2 hk)
  · rcases hg3 with hg | hg
    · left; intro k hk; exact hg k ((hordmem k).2 hk)
    · right; intro k hk; exact hg k ((hordmem k).2 hk)
  · intro hf k hk
    exact hg4 (fun i hi j hj => hf i ((hordmem i).1 hi) j ((hordmem j).1 hj)) k ((hordmem k).2 hk)

/-- As `product_eq_out`, without the exploration. -/
theorem product_eq_all (hn : n.WF) (ho : o.WF)
    (hs : SameElems n.alphabet o.alphabet) (comb : Option NfaState → Option NfaState → Bool) :
    ∃ ks, NProdKeys n o ks ∧ ∀ ord : List OPair → List OPair, (∀ l, (ord l).Perm l) →
      ∃ g, product ord n o comb = some (some (prodN n o comb ks g)) ∧
      (∀ j ∈ ks, ∀ k ∈ ks, g j = g k → j = k) ∧
      ((∀ k ∈ ks, g k = wanted n o k) ∨ ∀ k ∈ ks, ∃ i, g k = numStr i) ∧
      ((∀ j ∈ ks, ∀ k ∈ ks, wanted n o j = wanted n o k → j = k) → ∀ k ∈ ks, g k = wanted n o k) := by
  obtain ⟨out, _, _, h1, h2⟩ := product_eq_out hn ho hs
  exact ⟨_, h1, h2 comb _ rfl⟩

theorem product_eq {ord : List OPair → List OPair} (hord : ∀ l, (ord l).Perm l) (hn : n.WF) (ho : o.WF)
    (hs : SameElems n.alphabet o.alphabet) (comb : Option NfaState → Option NfaState → Bool) :
    ∃ ks g, product ord n o comb = some (some (prodN n o comb ks g)) ∧ NProdKeys n o ks ∧
      (∀ j ∈ ks, ∀ k ∈ ks, g j = g k → j = k) ∧
      ((∀ k ∈ ks, g k = Dfa.pairName ((k.1.map (fun s => (n.state s).name)).getD noneName)
          ((k.2.map (fun s => (o.state s).name)).getD noneName)) ∨ ∀ k ∈ ks, ∃ i, g k = numStr i) := by
  obtain ⟨ks, h1, h2⟩ := product_eq_all hn ho hs comb
  obtain ⟨g, h3, h4, h5, _⟩ := h2 ord hord
  exact ⟨ks, g, h3, h1, h4, h5⟩

section
variable {comb : Option NfaState → Option NfaState → Bool} {ks : List OPair} {g : OPair → Str}

theorem prodN_state {k : OPair} (hk : k ∈ ks) : (prodN n o comb ks g).state (ks.idxOf k) =
      { name := g k
        initial := k == pinit n o
        accepting := comb (k.1.map n.state) (k.2.map o.state)
        transitions := (pairRow n o (trans n o) k).map (fun l => l.map (fun p => ks.idxOf p))
        epsilonTransitions := (pairEps n o k).map (fun p => ks.idxOf p) } := by
  apply state_of_getElem?
  simp only [prodN, List.getElem?_map, List.getElem?_idxOf hk, Option.map_some]

theorem prodN_wf (hn : n.WF) (hks : NProdKeys n o ks)
    (hg : ∀ j ∈ ks, ∀ k ∈ ks, g j = g k → j = k) : (prodN n o comb ks g).WF := by
  have hlen : (prodN n o comb ks g).states.length = ks.length := by simp [prodN]
  have hlt : ∀ {p}, p ∈ ks → ks.idxOf p < (prodN n o comb ks g).states.length := by
    intro p hp; rw [hlen]; exact List.idxOf_lt_length_of_mem hp
  refine ⟨hn.alphabet_nodup, ?_, ?_, ?_, ?_, hlt hks.init, ?_⟩
  · simp only [prodN, List.map_map, Function.comp_def]
    exact List.Nodup.map_on hg hks.nodup
  · intro s hs
    obtain ⟨k, hk, rfl⟩ := List.mem_map.1 hs
    simp [prodN, pairRow]
  · intro s hs ts hts t ht
    obtain ⟨k, hk, rfl⟩ := List.mem_map.1 hs
    obtain ⟨l, hl, rfl⟩ := List.mem_map.1 hts
    obtain ⟨p, hp, rfl⟩ := List.mem_map.1 ht
    exact hlt (hks.succ hk (List.mem_append_left _ (List.mem_flatten.2 ⟨l, hl, hp⟩)))
  · intro s hs t ht
    obtain ⟨k, hk, rfl⟩ := List.mem_map.1 hs
    obtain ⟨p, hp, rfl⟩ := List.mem_map.1 ht
    exact hlt (hks.succ hk (List.mem_append_right _ hp))
  · intro i s hs
    simp only [prodN, List.getElem?_map, Option.map_eq_some_iff] at hs
    obtain ⟨k, hk, rfl⟩ := hs
    simp only [beq_iff_eq, prodN]
    constructor
    · rintro rfl
      have hi := lt_of_getElem? hk
      rw [List.getElem?_eq_getElem hi, Option.some.injEq] at hk
      rw [← hk]
      exact (hks.nodup.idxOf_getElem i hi).symm
    · rintro rfl
      rw [List.getElem?_idxOf hks.init] at hk
      exact (Option.some.inj hk).symm

theorem prodN_ep {p : OPair} (hp : p ∈ ks) {x : Nat} :
    x ∈ (prodN n o comb ks g).ep (ks.idxOf p) ↔ ∃ p' ∈ pairEps n o p, x = ks.idxOf p' := by
  unfold ep; rw [prodN_state hp]; simp [eq_comm]

theorem prodN_step (hn : n.WF) (ho : o.WF) (hs : SameElems n.alphabet o.alphabet) {p : OPair} (hp : p ∈ ks) {e : Str}
    {x : Nat} : (prodN n o comb ks g).Step (ks.idxOf p) e x ↔
      e ∈ n.alphabet ∧ ∃ p', PStep n o e p p' ∧ x = ks.idxOf p' := by
  unfold Step tr
  have halph : (prodN n o comb ks g).alphabet = n.alphabet := rfl
  rw [prodN_state hp, halph]
  have hget : ∀ i, i < n.alphabet.length →
      ((pairRow n o (trans n o) p).map (fun l => l.map (fun p => ks.idxOf p))).getD i [] =
        (pairTargets n o i ((trans n o).getD i 0) p).map (fun p => ks.idxOf p) := by
    intro i hi
    apply getD_eq_of_getElem?
    rw [List.getElem?_map, pairRow_getElem? hi, Option.map_some]
  constructor
  · rintro ⟨i, h1, h2⟩
    dsimp only at h2
    rw [hget i (lt_of_getElem? h1), List.mem_map] at h2
    obtain ⟨p', h3, rfl⟩ := h2
    exact ⟨List.mem_of_getElem? h1, p', (mem_pairTargets hn ho h1 (trans_getD hs h1)).1 h3, rfl⟩
  · rintro ⟨h1, p', h2, rfl⟩
    obtain ⟨i, hi⟩ := List.getElem?_of_mem h1
    refine ⟨i, hi, ?_⟩
    dsimp only
    rw [hget i (lt_of_getElem? hi), List.mem_map]
    exact ⟨p', (mem_pairTargets hn ho hi (trans_getD hs hi)).2 h2, rfl⟩

theorem pstep_mem_alphabet (hs : SameElems n.alphabet o.alphabet) {p p' : OPair} {e : Str} (h : PStep n o e p p') :
    e ∈ n.alphabet := by
  obtain ⟨h1, h2, h3⟩ := h
  obtain ⟨a, b⟩ := p'
  cases a with
  | some t =>
    cases hx : p.1 with
    | none => rw [hx] at h1; exact h1.elim
    | some q => rw [hx] at h1; obtain ⟨i, h4, _⟩ := h1; exact List.mem_of_getElem? h4
  | none =>
    cases b with
    | none => exact absurd rfl h3
    | some t =>
      cases hx : p.2 with
      | none => rw [hx] at h2; exact h2.elim
      | some q => rw [hx] at h2; obtain ⟨i, h4, _⟩ := h2; exact (hs e).2 (List.mem_of_getElem? h4)

theorem prodN_path (hn : n.WF) (ho : o.WF) (hs : SameElems n.alphabet o.alphabet) (hks : NProdKeys n o ks)
    {p : OPair} (hp : p ∈ ks) {w : Word} {x : Nat} :
    (prodN n o comb ks g).Path (ks.idxOf p) w x ↔ ∃ p' ∈ ks, x = ks.idxOf p' ∧ PPath n o p w p' := by
  constructor
  · intro h
    generalize hy : ks.idxOf p = y at h
    induction h generalizing p with
    | nil => exact ⟨p, hp, hy.symm, .nil p⟩
    | eps h1 h2 _ ih =>
      have := mem_ep.2 ⟨_, h1, h2⟩
      rw [← hy] at this
      obtain ⟨p', h3, rfl⟩ := (prodN_ep hp).1 this
      obtain ⟨r, h4, h5, h6⟩ := ih (hks.succ hp (List.mem_append_right _ h3)) rfl
      exact ⟨r, h4, h5, .eps h3 h6⟩
    | step h1 h2 h3 h4 _ ih =>
      have : (prodN n o comb ks g).Step _ _ _ := ⟨_, h2, mem_tr.2 ⟨_, _, h1, h3, h4⟩⟩
      rw [← hy] at this
      obtain ⟨he, p', h5, rfl⟩ := (prodN_step hn ho hs hp).1 this
      obtain ⟨r, h6, h7, h8⟩ := ih (hks.succ hp ((mem_psucc hn ho hs).2 (Or.inl ⟨_, he, h5⟩))) rfl
      exact ⟨r, h6, h7, .step h5 h8⟩
  · rintro ⟨p', hp', rfl, h⟩
    induction h with
    | nil p => exact .nil _
    | eps h1 _ ih =>
      have hm := hks.succ hp (List.mem_append_right _ h1)
      have := (prodN_ep (comb := comb) (g := g) hp).2 ⟨_, h1, rfl⟩
      obtain ⟨s, h3, h4⟩ := mem_ep.1 this
      exact .eps h3 h4 (ih hm hp')
    | step h1 _ ih =>
      have he := pstep_mem_alphabet hs h1
      have hm := hks.succ hp ((mem_psucc hn ho hs).2 (Or.inl ⟨_, he, h1⟩))
      obtain ⟨i, h3, h4⟩ := (prodN_step (comb := comb) (g := g) hn ho hs hp).2 ⟨he, _, h1, rfl⟩
      obtain ⟨s, ts, h5, h6, h7⟩ := mem_tr.1 h4
      exact .step h5 h3 h6 h7 (ih hm hp')

theorem ppath_mem (hn : n.WF) (ho : o.WF) (hs : SameElems n.alphabet o.alphabet) (hks : NProdKeys n o ks)
    {p p' : OPair} (hp : p ∈ ks) {w : Word} (h : PPath n o p w p') : p' ∈ ks := by
  induction h with
  | nil p => exact hp
  | eps h1 _ ih => exact ih (hks.succ hp (List.mem_append_right _ h1))
  | step h1 _ ih =>
    exact ih (hks.succ hp ((mem_psucc hn ho hs).2 (Or.inl ⟨_, pstep_mem_alphabet hs h1, h1⟩)))

theorem prodN_lang (hn : n.WF) (ho : o.WF) (hs : SameElems n.alphabet o.alphabet) (hks : NProdKeys n o ks) (w : Word) :
    (prodN n o comb ks g).Lang w ↔ ∃ a b, n.OutFrom (some n.initialState) w a ∧ o.OutFrom (some o.initialState) w b ∧
      (a, b) ≠ (none, none) ∧ comb (a.map n.state) (b.map o.state) = true := by
  unfold Lang
  have hinit : (prodN n o comb ks g).initialState = ks.idxOf (pinit n o) := rfl
  rw [hinit]
  have hacc : ∀ p ∈ ks, ((prodN n o comb ks g).Acc (ks.idxOf p) ↔ comb (p.1.map n.state) (p.2.map o.state) = true) := by
    intro p hp; rw [acc_iff, prodN_state hp]
  constructor
  · rintro ⟨x, h1, h2⟩
    obtain ⟨p', h3, rfl, h4⟩ := (prodN_path hn ho hs hks hks.init).1 h1
    obtain ⟨h5, h6, h7⟩ := ppath_out h4 (by simp [pinit])
    exact ⟨p'.1, p'.2, h5, h6, h7, (hacc p' h3).1 h2⟩
  · rintro ⟨a, b, h1, h2, h3, h4⟩
    have hp := ppath_of_out h1 h2 h3
    have hm := ppath_mem hn ho hs hks hks.init hp
    exact ⟨_, (prodN_path hn ho hs hks hks.init).2 ⟨_, hm, rfl, hp⟩, (hacc _ hm).2 h4⟩

theorem psucc_ppath (hn : n.WF) (ho : o.WF) (hs : SameElems n.alphabet o.alphabet) {p p' : OPair}
    (h : Relation.ReflTransGen (fun a b => b ∈ psucc n o a) p p') : ∃ w, PPath n o p w p' := by
  induction h using Relation.ReflTransGen.head_induction_on with
  | refl => exact ⟨[], .nil _⟩
  | head h1 _ ih =>
    obtain ⟨w, hw⟩ := ih
    rcases (mem_psucc hn ho hs).1 h1 with ⟨e, _, h2⟩ | h2
    · exact ⟨e :: w, .step h2 hw⟩
    · exact ⟨w, .eps h2 hw⟩

theorem prodN_reachable (hn : n.WF) (ho : o.WF) (hs : SameElems n.alphabet o.alphabet) (hks : NProdKeys n o ks)
    {i : Nat} (hi : i < (prodN n o comb ks g).states.length) :
    ∃ w, (prodN n o comb ks g).Path (prodN n o comb ks g).initialState w i := by
  have hlt : i < ks.length := by simpa [prodN] using hi
  have hm := List.getElem_mem hlt
  obtain ⟨w, hw⟩ := psucc_ppath hn ho hs ((hks.mem_iff _).1 hm)
  refine ⟨w, (prodN_path hn ho hs hks hks.init).2 ⟨_, hm, ?_, hw⟩⟩
  rw [hks.nodup.idxOf_getElem i hlt]

end

end Nfa
end Dandy
