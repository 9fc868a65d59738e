import Verif.Proofs.DfaCore
import Verif.Proofs.Names
import Mathlib.Data.List.ProdSigma
/-! # DFA product construction and equivalence: lemmas -/

namespace Dandy

theorem alphabetEqual_iff {a b : List Str} (ha : a.Nodup) (hb : b.Nodup) :
    alphabetEqual a b = true ↔ SameElems a b := by
  unfold alphabetEqual SameElems
  constructor
  · intro h
    split at h
    · cases h
    · simp only [Bool.and_eq_true, List.all_eq_true, decide_eq_true_eq] at h
      exact fun e => ⟨h.1 e, h.2 e⟩
  · intro h
    have hp : a.Perm b := (List.perm_ext_iff_of_nodup ha hb).2 h
    rw [if_neg (by simp [hp.length_eq])]
    simp only [Bool.and_eq_true, List.all_eq_true, decide_eq_true_eq]
    exact ⟨fun e => (h e).1, fun e => (h e).2⟩

namespace Dfa

/-- The evaluator pair at states `q1`, `q2`. -/
abbrev evp (d o : Dfa) (q1 q2 : Nat) : DfaEval × DfaEval := (⟨d, q1, false⟩, ⟨o, q2, false⟩)

/-- Invariant of all evaluator pairs met during the exploration. -/
def PairInv (d o : Dfa) (p : DfaEval × DfaEval) : Prop :=
  ∃ q1 q2, q1 < d.states.length ∧ q2 < o.states.length ∧ p = evp d o q1 q2

theorem pairSucc_mem {d o : Dfa} (h : SameElems d.alphabet o.alphabet) {q1 q2 : Nat} {p : DfaEval × DfaEval} :
    p ∈ pairSucc d.alphabet (evp d o q1 q2) ↔
      ∃ e t1 t2, d.nxt q1 e = some t1 ∧ o.nxt q2 e = some t2 ∧ p = evp d o t1 t2 := by
  unfold pairSucc
  rw [List.mem_map]
  constructor
  · rintro ⟨e, he, rfl⟩
    obtain ⟨t1, h1⟩ := nxt_exists (d := d) (q := q1) he
    obtain ⟨t2, h2⟩ := nxt_exists (d := o) (q := q2) ((h e).1 he)
    exact ⟨e, t1, t2, h1, h2, by simp [DfaEval.step_known h1, DfaEval.step_known h2]⟩
  · rintro ⟨e, t1, t2, h1, h2, rfl⟩
    have he : e ∈ d.alphabet := by
      by_contra hc; rw [nxt_none.2 hc] at h1; cases h1
    exact ⟨e, he, by simp [DfaEval.step_known h1, DfaEval.step_known h2]⟩

theorem pair_reach {d o : Dfa} (h : SameElems d.alphabet o.alphabet) {q1 q2 : Nat} {p : DfaEval × DfaEval} :
    Relation.ReflTransGen (fun a b => b ∈ pairSucc d.alphabet a) (evp d o q1 q2) p ↔
      ∃ w t1 t2, d.runE q1 w = some t1 ∧ o.runE q2 w = some t2 ∧ p = evp d o t1 t2 := by
  constructor
  · intro hr
    induction hr with
    | refl => exact ⟨[], q1, q2, rfl, rfl, rfl⟩
    | tail _ hbc ih =>
      obtain ⟨w, t1, t2, h1, h2, rfl⟩ := ih
      obtain ⟨e, u1, u2, h3, h4, rfl⟩ := (pairSucc_mem h).1 hbc
      exact ⟨w ++ [e], u1, u2, by simp [runE_append, h1, runE, h3], by simp [runE_append, h2, runE, h4], rfl⟩
  · rintro ⟨w, t1, t2, h1, h2, rfl⟩
    induction w generalizing q1 q2 with
    | nil =>
      simp only [runE, Option.some.injEq] at h1 h2
      subst h1; subst h2; exact .refl
    | cons e w ih =>
      simp only [runE] at h1 h2
      cases hn1 : d.nxt q1 e with
      | none => simp [hn1] at h1
      | some u1 =>
        cases hn2 : o.nxt q2 e with
        | none => simp [hn2] at h2
        | some u2 =>
          simp only [hn1, hn2, Option.bind_some] at h1 h2
          exact Relation.ReflTransGen.head ((pairSucc_mem h).2 ⟨e, u1, u2, hn1, hn2, rfl⟩) (ih h1 h2)

theorem explore_pair {d o : Dfa} (hd : d.WF) (ho : o.WF) (h : SameElems d.alphabet o.alphabet)
    (ok : DfaEval × DfaEval → Bool) :
    let init := (DfaEval.new d, DfaEval.new o)
    (explore pairKey (pairSucc d.alphabet) ok (pairFuel d o) [init] [init] [] = some none ∧
      ∃ s, Relation.ReflTransGen (fun a b => b ∈ pairSucc d.alphabet a) init s ∧ ok s = false) ∨
    (∃ out seen, explore pairKey (pairSucc d.alphabet) ok (pairFuel d o) [init] [init] [] = some (some (out, seen)) ∧
      Explored pairKey (pairSucc d.alphabet) ok init out seen) := by
  apply explore_spec (PairInv d o) (List.range d.states.length ×ˢ List.range o.states.length)
  · exact ⟨d.initialState, o.initialState, hd.init_lt, ho.init_lt, rfl⟩
  · rintro _ ⟨q1, q2, h1, h2, rfl⟩ t ht
    obtain ⟨e, t1, t2, h3, h4, rfl⟩ := (pairSucc_mem h).1 ht
    exact ⟨t1, t2, nxt_lt hd h1 h3, nxt_lt ho h2 h4, rfl⟩
  · rintro _ _ ⟨q1, q2, _, _, rfl⟩ ⟨r1, r2, _, _, rfl⟩ hk
    simp only [pairKey, DfaEval.currentStateIdx, Prod.mk.injEq] at hk
    obtain ⟨rfl, rfl⟩ := hk
    rfl
  · rintro _ ⟨q1, q2, h1, h2, rfl⟩
    simp only [pairKey, DfaEval.currentStateIdx]
    rw [List.mem_product]
    simpa [pairKey, DfaEval.currentStateIdx] using ⟨h1, h2⟩
  · rw [List.length_product]
    simp [pairFuel]

/-- The product automaton, given the list of explored pairs in pop order and the names. -/
def prodOf (d o : Dfa) (comb : DfaState → DfaState → Bool) (ks : List (Nat × Nat)) (g : Nat × Nat → Str) : Dfa :=
  { alphabet := d.alphabet,
    states := ks.map (fun k => { name := g k, initial := k == (d.initialState, o.initialState),
                                 accepting := comb (d.state k.1) (o.state k.2),
                                 transitions := d.alphabet.map (fun e =>
                                   ks.idxOf ((d.nxt k.1 e).getD 0, (o.nxt k.2 e).getD 0)) }),
    initialState := ks.idxOf (d.initialState, o.initialState) }

/-- The facts about the list of explored pairs. -/
structure ProdKeys (d o : Dfa) (ks : List (Nat × Nat)) : Prop where
  nodup : ks.Nodup
  mem_iff : ∀ k, k ∈ ks ↔ ∃ w, d.runE d.initialState w = some k.1 ∧ o.runE o.initialState w = some k.2

theorem revGet_eq_idxOf {α : Type} [DecidableEq α] [BEq α] [LawfulBEq α] {l : List α} (hn : l.Nodup) {k : α} (h : k ∈ l) :
    revGet l k = some (l.idxOf k) :=
  revGet_of_getElem? hn (by rw [List.getElem?_eq_getElem (List.idxOf_lt_length_iff.2 h)]; simp)

/-- The result of the product construction: the explored pairs do not depend on the iteration order, only the names. -/
theorem product_eq_out {d o : Dfa}
    (hd : d.WF) (ho : o.WF) (h : SameElems d.alphabet o.alphabet) :
    ∃ out seen, explore pairKey (pairSucc d.alphabet) (fun _ => true) (pairFuel d o) [(DfaEval.new d, DfaEval.new o)]
        [(DfaEval.new d, DfaEval.new o)] [] = some (some (out, seen)) ∧
      (∀ p ∈ out, ∃ t1 t2, t1 < d.states.length ∧ t2 < o.states.length ∧ p = evp d o t1 t2) ∧ ProdKeys d o (out.map pairKey) ∧
      ∀ (comb : DfaState → DfaState → Bool) (ks : List (Nat × Nat)), ks = out.map pairKey → ∀ ord : List (Nat × Nat) → List (Nat × Nat), (∀ l, (ord l).Perm l) →
      ∃ g, product ord d o comb = some (some (prodOf d o comb ks g)) ∧
      (∀ j ∈ ks, ∀ k ∈ ks, g j = g k → j = k) ∧
      ((∀ k ∈ ks, g k = pairName (d.state k.1).name (o.state k.2).name) ∨ ∀ k ∈ ks, ∃ i, g k = numStr i) ∧
      ((∀ j ∈ ks, ∀ k ∈ ks, pairName (d.state j.1).name (o.state j.2).name = pairName (d.state k.1).name (o.state k.2).name →
        j = k) → ∀ k ∈ ks, g k = pairName (d.state k.1).name (o.state k.2).name) := by
  unfold product
  rw [(alphabetEqual_iff hd.alphabet_nodup ho.alphabet_nodup).2 h]
  simp only [Bool.not_true, Bool.false_eq_true, if_false]
  rcases explore_pair hd ho h (fun _ => true) with ⟨_, s, _, hs⟩ | ⟨out, seen, he, hE⟩
  · cases hs
  rw [he]
  simp only
  have hinit : (DfaEval.new d, DfaEval.new o) = evp d o d.initialState o.initialState := rfl
  have hmem : ∀ p, p ∈ out ↔ ∃ w t1 t2, d.runE d.initialState w = some t1 ∧ o.runE o.initialState w = some t2 ∧
      p = evp d o t1 t2 := by
    intro p; rw [← hE.perm.mem_iff, hE.mem_iff, hinit, pair_reach h]
  have hks : ProdKeys d o (out.map pairKey) := by
    constructor
    · exact (hE.perm.map pairKey).nodup_iff.1 hE.keys_nodup
    · rintro ⟨k1, k2⟩
      rw [List.mem_map]
      constructor
      · rintro ⟨p, hp, hk⟩
        obtain ⟨w, t1, t2, h1, h2, rfl⟩ := (hmem p).1 hp
        simp only [pairKey, DfaEval.currentStateIdx, Prod.mk.injEq] at hk
        obtain ⟨rfl, rfl⟩ := hk
        exact ⟨w, h1, h2⟩
      · rintro ⟨w, h1, h2⟩
        exact ⟨evp d o k1 k2, (hmem _).2 ⟨w, k1, k2, h1, h2, rfl⟩, rfl⟩
  refine ⟨out, seen, rfl, ?_, hks, fun comb ks hk ord hord => ?_⟩
  · intro p hp
    obtain ⟨w, t1, t2, h1, h2, rfl⟩ := (hmem p).1 hp
    exact ⟨t1, t2, runE_lt hd hd.init_lt h1, runE_lt ho ho.init_lt h2, rfl⟩
  subst hk
  -- state data
  have hsd : out.mapM (fun p => (do
        let s1 ← p.1.currentState
        let s2 ← p.2.currentState
        pure (pairKey p, comb s1 s2, (pairSucc d.alphabet p).map pairKey) :
          Option ((Nat × Nat) × Bool × List (Nat × Nat)))) =
      some (out.map (fun p => (pairKey p, comb (d.state p.1.cur) (o.state p.2.cur),
        d.alphabet.map (fun e => ((d.nxt p.1.cur e).getD 0, (o.nxt p.2.cur e).getD 0))))) := by
    apply mapM_some
    intro p hp
    obtain ⟨w, t1, t2, h1, h2, rfl⟩ := (hmem p).1 hp
    simp only [DfaEval.currentState, Bool.false_eq_true, if_false, pairSucc, List.map_map]
    simp only [bind, Option.bind, pure]
    congr 3
    apply List.map_congr_left
    intro e he
    obtain ⟨u1, hu1⟩ := nxt_exists (d := d) (q := t1) he
    obtain ⟨u2, hu2⟩ := nxt_exists (d := o) (q := t2) ((h e).1 he)
    simp [pairKey, DfaEval.currentStateIdx, hu1, hu2, DfaEval.step_known hu1, DfaEval.step_known hu2]
  rw [hsd]
  -- names
  have hlen : (ord (seen.map pairKey)).length = out.length := by
    rw [(hord _).length_eq, List.length_map, hE.perm.length_eq]
  have hordnd : (ord (seen.map pairKey)).Nodup := (hord _).nodup_iff.2 hE.keys_nodup
  have hordmem : ∀ k, k ∈ ord (seen.map pairKey) ↔ k ∈ out.map pairKey := by
    intro k; rw [(hord _).mem_iff, (hE.perm.map pairKey).mem_iff]
  obtain ⟨g, hg1, hg2, hg3, hg4⟩ := genNames_spec
    (fun k : Nat × Nat => pairName (d.state k.1).name (o.state k.2).name) _ hordnd
  have hq : (d.initialState, o.initialState) ∈ out.map pairKey :=
    (hks.mem_iff _).2 ⟨[], rfl, rfl⟩
  refine ⟨g, ?_, ?_, ?_, ?_⟩
  · simp only [bind, Option.bind, pure, List.map_map, Function.comp_def, List.length_map]
    rw [revGet_eq_idxOf (l := out.map (fun p => pairKey p)) hks.nodup hq]
    simp only
    rw [mapM_some (g := fun sd : (Nat × Nat) × Bool × List (Nat × Nat) =>
      ({ name := g sd.1, initial := sd.1 == (d.initialState, o.initialState), accepting := sd.2.1,
         transitions := sd.2.2.map (fun k => (out.map pairKey).idxOf k) } : DfaState))]
    · simp only [prodOf, List.map_map, Function.comp_def]
      rfl
    · intro sd hsd
      obtain ⟨p, hp, rfl⟩ := List.mem_map.1 hsd
      obtain ⟨w, t1, t2, h1, h2, rfl⟩ := (hmem p).1 hp
      dsimp only
      rw [← hlen, hg1 _ ((hordmem _).2 (List.mem_map.2 ⟨_, hp, rfl⟩))]
      simp only
      rw [mapM_some (g := fun k => (out.map pairKey).idxOf k)]
      intro k hk
      obtain ⟨e, he, rfl⟩ := List.mem_map.1 hk
      obtain ⟨u1, hu1⟩ := nxt_exists (d := d) (q := t1) he
      obtain ⟨u2, hu2⟩ := nxt_exists (d := o) (q := t2) ((h e).1 he)
      apply revGet_eq_idxOf hks.nodup
      rw [hks.mem_iff]
      exact ⟨w ++ [e], by simp [runE_append, h1, runE, hu1], by simp [runE_append, h2, runE, hu2]⟩
  · intro j hj k hk; exact hg2 j ((hordmem j).2 hj) k ((hordmem k).2 hk)
  · rcases hg3 with hg | hg
    · left; intro k hk; exact hg k ((hordmem k).2 hk)
    · right; intro k hk; exact hg k ((hordmem k).2 hk)
  · intro hf k hk
    exact hg4 (fun i hi j hj => hf i ((hordmem i).1 hi) j ((hordmem j).1 hj)) k ((hordmem k).2 hk)

/-- As `product_eq_out`, without the exploration. -/
theorem product_eq_all {d o : Dfa}
    (hd : d.WF) (ho : o.WF) (h : SameElems d.alphabet o.alphabet) (comb : DfaState → DfaState → Bool) :
    ∃ ks, ProdKeys d o ks ∧ ∀ ord : List (Nat × Nat) → List (Nat × Nat), (∀ l, (ord l).Perm l) →
      ∃ g, product ord d o comb = some (some (prodOf d o comb ks g)) ∧
      (∀ j ∈ ks, ∀ k ∈ ks, g j = g k → j = k) ∧
      ((∀ k ∈ ks, g k = pairName (d.state k.1).name (o.state k.2).name) ∨ ∀ k ∈ ks, ∃ i, g k = numStr i) ∧
      ((∀ j ∈ ks, ∀ k ∈ ks, pairName (d.state j.1).name (o.state j.2).name = pairName (d.state k.1).name (o.state k.2).name →
        j = k) → ∀ k ∈ ks, g k = pairName (d.state k.1).name (o.state k.2).name) := by
  obtain ⟨out, _, _, _, h1, h2⟩ := product_eq_out hd ho h
  exact ⟨_, h1, h2 comb _ rfl⟩

theorem product_eq {ord : List (Nat × Nat) → List (Nat × Nat)} (hord : ∀ l, (ord l).Perm l) {d o : Dfa}
    (hd : d.WF) (ho : o.WF) (h : SameElems d.alphabet o.alphabet) (comb : DfaState → DfaState → Bool) :
    ∃ ks g, product ord d o comb = some (some (prodOf d o comb ks g)) ∧ ProdKeys d o ks ∧
      (∀ j ∈ ks, ∀ k ∈ ks, g j = g k → j = k) ∧
      ((∀ k ∈ ks, g k = pairName (d.state k.1).name (o.state k.2).name) ∨ ∀ k ∈ ks, ∃ i, g k = numStr i) := by
  obtain ⟨ks, h1, h2⟩ := product_eq_all hd ho h comb
  obtain ⟨g, h3, h4, h5, _⟩ := h2 ord hord
  exact ⟨ks, g, h3, h1, h4, h5⟩

theorem prodKeys_step {d o : Dfa} {ks : List (Nat × Nat)} (hks : ProdKeys d o ks) {k1 k2 t1 t2 : Nat} {e : Str}
    (hk : (k1, k2) ∈ ks) (h1 : d.nxt k1 e = some t1) (h2 : o.nxt k2 e = some t2) : (t1, t2) ∈ ks := by
  obtain ⟨w, h3, h4⟩ := (hks.mem_iff _).1 hk
  exact (hks.mem_iff _).2 ⟨w ++ [e], by simp [runE_append, h3, runE, h1], by simp [runE_append, h4, runE, h2]⟩

theorem prodOf_state {d o : Dfa} {comb} {ks : List (Nat × Nat)} {g} {k : Nat × Nat} (hk : k ∈ ks) :
    (prodOf d o comb ks g).states[ks.idxOf k]? = some
      { name := g k, initial := k == (d.initialState, o.initialState),
        accepting := comb (d.state k.1) (o.state k.2),
        transitions := d.alphabet.map (fun e => ks.idxOf ((d.nxt k.1 e).getD 0, (o.nxt k.2 e).getD 0)) } := by
  have hlt := List.idxOf_lt_length_iff.2 hk
  simp [prodOf, List.getElem?_map, List.getElem?_eq_getElem hlt]

theorem prodOf_wf {d o : Dfa} (hd : d.WF) (h : SameElems d.alphabet o.alphabet) {comb} {ks : List (Nat × Nat)}
    {g} (hks : ProdKeys d o ks) (hg : ∀ j ∈ ks, ∀ k ∈ ks, g j = g k → j = k) : (prodOf d o comb ks g).WF := by
  have hq : (d.initialState, o.initialState) ∈ ks := (hks.mem_iff _).2 ⟨[], rfl, rfl⟩
  refine ⟨hd.alphabet_nodup, ?_, ?_, ?_, ?_, ?_⟩
  · simp only [prodOf, List.map_map, Function.comp_def]
    exact List.Nodup.map_on hg hks.nodup
  · intro s hs
    obtain ⟨k, hk, rfl⟩ := List.mem_map.1 hs
    simp [prodOf]
  · intro s hs t ht
    obtain ⟨k, hk, rfl⟩ := List.mem_map.1 hs
    obtain ⟨e, he, rfl⟩ := List.mem_map.1 ht
    obtain ⟨u1, hu1⟩ := nxt_exists (d := d) (q := k.1) he
    obtain ⟨u2, hu2⟩ := nxt_exists (d := o) (q := k.2) ((h e).1 he)
    simp only [prodOf, List.length_map, hu1, hu2, Option.getD_some]
    exact List.idxOf_lt_length_iff.2 (prodKeys_step hks hk hu1 hu2)
  · simpa [prodOf] using List.idxOf_lt_length_iff.2 hq
  · intro i s hs
    simp only [prodOf, List.getElem?_map, Option.map_eq_some_iff] at hs
    obtain ⟨k, hk, rfl⟩ := hs
    simp only [beq_iff_eq, prodOf]
    constructor
    · rintro rfl
      have hi := lt_of_getElem? hk
      rw [List.getElem?_eq_getElem hi, Option.some.injEq] at hk
      rw [← hk]
      exact (hks.nodup.idxOf_getElem i hi).symm
    · rintro rfl
      rw [List.getElem?_eq_getElem (List.idxOf_lt_length_iff.2 hq)] at hk
      simpa using hk.symm

theorem prodOf_runE {d o : Dfa} (hd : d.WF) (h : SameElems d.alphabet o.alphabet) {comb} {ks : List (Nat × Nat)}
    {g} (hks : ProdKeys d o ks) (w : Word) {k1 k2 : Nat} (hk : (k1, k2) ∈ ks) :
    (d.runE k1 w = none ∧ (prodOf d o comb ks g).runE (ks.idxOf (k1, k2)) w = none) ∨
    ∃ t1 t2, d.runE k1 w = some t1 ∧ o.runE k2 w = some t2 ∧ (t1, t2) ∈ ks ∧
      (prodOf d o comb ks g).runE (ks.idxOf (k1, k2)) w = some (ks.idxOf (t1, t2)) := by
  induction w generalizing k1 k2 with
  | nil => right; exact ⟨k1, k2, rfl, rfl, hk, rfl⟩
  | cons e w ih =>
    by_cases he : e ∈ d.alphabet
    · obtain ⟨u1, hu1⟩ := nxt_exists (d := d) (q := k1) he
      obtain ⟨u2, hu2⟩ := nxt_exists (d := o) (q := k2) ((h e).1 he)
      have hn : (prodOf d o comb ks g).nxt (ks.idxOf (k1, k2)) e = some (ks.idxOf (u1, u2)) := by
        obtain ⟨i, hi⟩ := revGet_exists he
        have hst := state_of_getElem? (prodOf_state (d := d) (o := o) (comb := comb) (g := g) hk)
        have hi2 := revGet_some hi
        have : (prodOf d o comb ks g).alphabet = d.alphabet := rfl
        unfold nxt at ⊢
        rw [this, hi, hst]
        simp [hi2, hu1, hu2]
      simp only [runE, hn, hu1, hu2, Option.bind_some]
      exact ih (prodKeys_step hks hk hu1 hu2)
    · left
      have h1 : d.nxt k1 e = none := nxt_none.2 he
      have h2 : (prodOf d o comb ks g).nxt (ks.idxOf (k1, k2)) e = none := nxt_none.2 he
      simp [runE, h1, h2]

theorem prodOf_lang {d o : Dfa} (hd : d.WF) (ho : o.WF) (h : SameElems d.alphabet o.alphabet) {comb}
    {ks : List (Nat × Nat)} {g} (hks : ProdKeys d o ks) (hg : ∀ j ∈ ks, ∀ k ∈ ks, g j = g k → j = k) (w : Word) :
    (prodOf d o comb ks g).Lang w ↔ ∃ q1 q2, d.runE d.initialState w = some q1 ∧ o.runE o.initialState w = some q2 ∧
      comb (d.state q1) (o.state q2) = true := by
  rw [lang_iff (prodOf_wf hd h hks hg)]
  have hq : (d.initialState, o.initialState) ∈ ks := (hks.mem_iff _).2 ⟨[], rfl, rfl⟩
  have hinit : (prodOf d o comb ks g).initialState = ks.idxOf (d.initialState, o.initialState) := rfl
  rw [hinit]
  rcases prodOf_runE (comb := comb) (g := g) hd h hks w hq with ⟨h1, h2⟩ | ⟨t1, t2, h1, h2, h3, h4⟩
  · simp [h1, h2]
  · simp only [h1, h2, h4, Option.some.injEq]
    have hst := state_of_getElem? (prodOf_state (d := d) (o := o) (comb := comb) (g := g) h3)
    constructor
    · rintro ⟨_, rfl, hacc⟩
      rw [hst] at hacc
      exact ⟨t1, t2, rfl, rfl, hacc⟩
    · rintro ⟨_, _, rfl, rfl, hacc⟩
      exact ⟨_, rfl, by rw [hst]; exact hacc⟩

theorem prodOf_reachable {d o : Dfa} (hd : d.WF) (h : SameElems d.alphabet o.alphabet) {comb}
    {ks : List (Nat × Nat)} {g} (hks : ProdKeys d o ks) (hg : ∀ j ∈ ks, ∀ k ∈ ks, g j = g k → j = k)
    (i : Nat) (hi : i < (prodOf d o comb ks g).states.length) :
    ∃ w, (prodOf d o comb ks g).Run (prodOf d o comb ks g).initialState w i := by
  have hwf := prodOf_wf (comb := comb) hd h hks hg
  simp only [prodOf, List.length_map] at hi
  obtain ⟨w, h1, h2⟩ := (hks.mem_iff ks[i]).1 (List.getElem_mem hi)
  refine ⟨w, (run_iff hwf hwf.init_lt).2 ?_⟩
  have hq : (d.initialState, o.initialState) ∈ ks := (hks.mem_iff _).2 ⟨[], rfl, rfl⟩
  rcases prodOf_runE (comb := comb) (g := g) hd h hks w hq with ⟨h3, _⟩ | ⟨t1, t2, h3, h4, _, h6⟩
  · rw [h3] at h1; cases h1
  · rw [h3, Option.some.injEq] at h1; rw [h4, Option.some.injEq] at h2
    subst h1; subst h2
    have : (prodOf d o comb ks g).initialState = ks.idxOf (d.initialState, o.initialState) := rfl
    rw [this, h6]
    congr 1
    exact hks.nodup.idxOf_getElem i hi

theorem prodOf_length {d o : Dfa} (hd : d.WF) (ho : o.WF) {comb} {ks : List (Nat × Nat)} {g}
    (hks : ProdKeys d o ks) :
    (prodOf d o comb ks g).states.length ≤ d.states.length * o.states.length := by
  simp only [prodOf, List.length_map]
  have := nodup_subset_length_le hks.nodup
    (K := List.range d.states.length ×ˢ List.range o.states.length) (by
      rintro ⟨k1, k2⟩ hk
      obtain ⟨w, h1, h2⟩ := (hks.mem_iff _).1 hk
      rw [List.mem_product]
      simpa using ⟨runE_lt hd hd.init_lt h1, runE_lt ho ho.init_lt h2⟩)
  simpa [List.length_product] using this

/-! ## Equivalence -/

theorem equivalentTo_spec {d o : Dfa} (hd : d.WF) (ho : o.WF) :
    ∃ b, equivalentTo d o = some b ∧
      (b = true ↔ SameElems d.alphabet o.alphabet ∧ ∀ w, d.Lang w ↔ o.Lang w) := by
  unfold equivalentTo
  by_cases h : SameElems d.alphabet o.alphabet
  · rw [(alphabetEqual_iff hd.alphabet_nodup ho.alphabet_nodup).2 h]
    simp only [Bool.not_true, Bool.false_eq_true, if_false]
    have hinit : (DfaEval.new d, DfaEval.new o) = evp d o d.initialState o.initialState := rfl
    rcases explore_pair hd ho h (fun p => p.1.isAccepting == p.2.isAccepting) with ⟨he, s, hs, hok⟩ | ⟨out, seen, he, hE⟩
    · rw [he]
      refine ⟨false, rfl, ?_⟩
      simp only [Bool.false_eq_true, false_iff]
      rintro ⟨_, hl⟩
      rw [hinit, pair_reach h] at hs
      obtain ⟨w, t1, t2, h1, h2, rfl⟩ := hs
      have := hl w
      rw [lang_iff hd, lang_iff ho, h1, h2] at this
      simp only [Option.some.injEq, exists_eq_left'] at this
      simp only [DfaEval.isAccepting, DfaEval.currentState, Bool.false_eq_true, if_false, beq_eq_false_iff_ne] at hok
      exact hok (Bool.eq_iff_iff.2 this)
    · rw [he]
      refine ⟨true, rfl, ?_⟩
      simp only [true_iff]
      refine ⟨h, fun w => ?_⟩
      rw [lang_iff hd, lang_iff ho]
      by_cases hw : Over d.alphabet w
      · obtain ⟨t1, h1⟩ := runE_exists (d := d) d.initialState hw
        obtain ⟨t2, h2⟩ := runE_exists (d := o) o.initialState (fun e he => (h e).1 (hw e he))
        have hmem := (hE.mem_iff (evp d o t1 t2)).2 (by rw [hinit, pair_reach h]; exact ⟨w, t1, t2, h1, h2, rfl⟩)
        have := hE.all_ok _ hmem
        simp only [DfaEval.isAccepting, DfaEval.currentState, Bool.false_eq_true, if_false, beq_iff_eq] at this
        simp only [h1, h2, Option.some.injEq, exists_eq_left', this]
      · have h1 : ∀ q, d.runE d.initialState w ≠ some q := fun q hq => hw (over_of_runE hq)
        have h2 : ∀ q, o.runE o.initialState w ≠ some q := fun q hq =>
          hw (fun e he => (h e).2 (over_of_runE hq e he))
        simp [h1, h2]
  · have : alphabetEqual d.alphabet o.alphabet = false := by
      rw [← Bool.not_eq_true, alphabetEqual_iff hd.alphabet_nodup ho.alphabet_nodup]; exact h
    rw [this]
    exact ⟨false, rfl, by simp [h]⟩

end Dfa
end Dandy
