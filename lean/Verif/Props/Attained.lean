import Mathlib.Data.Fintype.BigOperators
import Verif.Spec.Attained
import Verif.Proofs.Names
import Verif.Props.DfaProduct
import Verif.Props.DfaEvaluator
import Verif.Props.DfaMinimize
import Verif.Props.NfaToDfa
import Verif.Props.Sizes
/-! # C118: the bounds on the numbers of states are attained -/

namespace Dandy
open Attained

/-- Words that can be told apart lead to different states. -/
private theorem states_ge {ι : Type} [Fintype ι] (d : Dfa) (hd : d.WF) (f : ι → Word) (ho : ∀ i, Over d.alphabet (f i))
    (h : ∀ i j, (∀ w, d.Lang (f i ++ w) ↔ d.Lang (f j ++ w)) → i = j) : Fintype.card ι ≤ d.states.length := by
  classical
  have hrun : ∀ i, ∃ q, d.runE d.initialState (f i) = some q := by
    intro i
    cases hr : d.runE d.initialState (f i) with
    | some q => exact ⟨q, rfl⟩
    | none =>
      obtain ⟨e, h1, h2⟩ := Dfa.runE_none.1 hr
      exact absurd (ho i e h1) h2
  choose g hg using hrun
  have hlt : ∀ i, g i < d.states.length := fun i => Dfa.runE_lt hd hd.init_lt (hg i)
  have := Fintype.card_le_of_injective (fun i => (⟨g i, hlt i⟩ : Fin d.states.length)) (by
    intro i j hij
    have hij : g i = g j := by simpa using hij
    refine h i j (fun w => ?_)
    rw [Dfa.lang_iff hd, Dfa.lang_iff hd, Dfa.runE_append, Dfa.runE_append, hg, hg, hij])
  simpa using this

private theorem counter_wf {n : Nat} (hn : 0 < n) (b : Bool) : (counter n b).WF where
  alphabet_nodup := (by decide : [c!"a", c!"b"].Nodup)
  names_nodup := by
    simp only [counter, List.map_map]
    exact List.Nodup.map (fun _ _ h => numStr_inj h) List.nodup_range
  row_len := by cases b <;> simp [counter]
  targets := by
    intro st hst t ht
    simp only [counter, List.mem_map, List.mem_range, List.length_map, List.length_range] at hst ⊢
    obtain ⟨i, hi, rfl⟩ := hst
    have := Nat.mod_lt (i + 1) hn
    cases b <;> simp at ht <;> rcases ht with rfl | rfl <;> assumption
  init_lt := by simpa [counter] using hn
  init_flag := by
    intro i st hi
    simp only [counter, List.getElem?_map, Option.map_eq_some_iff] at hi ⊢
    obtain ⟨j, hj, rfl⟩ := hi
    obtain ⟨_, hj⟩ := List.getElem?_eq_some_iff.1 hj
    simp only [List.getElem_range] at hj
    subst hj
    simp

private theorem counter_run {n : Nat} (b : Bool) : ∀ (w : Word) (q : Nat), q < n → Over (counter n b).alphabet w →
    (counter n b).runE q w = some ((q + w.count (if b then c!"a" else c!"b")) % n)
  | [], q, hq, _ => by simp [Dfa.runE, Nat.mod_eq_of_lt hq]
  | e :: w, q, hq, ho => by
    have he : e = c!"a" ∨ e = c!"b" := by simpa [counter] using ho e (by simp)
    have hw : Over (counter n b).alphabet w := fun x hx => ho x (by simp [hx])
    have hn : 0 < n := by omega
    have hlt := Nat.mod_lt (q + 1) hn
    rcases he with rfl | rfl <;> cases b
    · have : (counter n false).nxt q c!"a" = some q := by simp [Dfa.nxt, Dfa.state, counter, revGet, revGetFrom, hq]
      rw [Dfa.runE, this, Option.bind_some, counter_run false w q hq hw]
      simp
    · have : (counter n true).nxt q c!"a" = some ((q + 1) % n) := by simp [Dfa.nxt, Dfa.state, counter, revGet, revGetFrom, hq]
      rw [Dfa.runE, this, Option.bind_some, counter_run true w _ hlt hw]
      simp [Nat.add_comm, Nat.add_left_comm]
    · have : (counter n false).nxt q c!"b" = some ((q + 1) % n) := by simp [Dfa.nxt, Dfa.state, counter, revGet, revGetFrom, hq]
      rw [Dfa.runE, this, Option.bind_some, counter_run false w _ hlt hw]
      simp [Nat.add_comm, Nat.add_left_comm]
    · have : (counter n true).nxt q c!"b" = some q := by simp [Dfa.nxt, Dfa.state, counter, revGet, revGetFrom, hq]
      rw [Dfa.runE, this, Option.bind_some, counter_run true w q hq hw]
      simp

private theorem counter_lang {n : Nat} (hn : 0 < n) (b : Bool) (w : Word) :
    (counter n b).Lang w ↔ Over [c!"a", c!"b"] w ∧ n ∣ w.count (if b then c!"a" else c!"b") := by
  constructor
  · intro h
    have ho := Dfa.over_of_lang (counter_wf hn b) h
    refine ⟨ho, ?_⟩
    obtain ⟨q, h1, h2⟩ := (Dfa.lang_iff (counter_wf hn b)).1 h
    have : (counter n b).initialState = 0 := rfl
    rw [this, counter_run b w 0 hn ho, Nat.zero_add] at h1
    cases h1
    have hlt := Nat.mod_lt (w.count (if b then c!"a" else c!"b")) hn
    simp only [Dfa.state, counter, List.getD_eq_getElem?_getD, List.getElem?_map, List.getElem?_range hlt, Option.map_some,
      Option.getD_some, decide_eq_true_eq] at h2
    exact Nat.dvd_of_mod_eq_zero h2
  · rintro ⟨ho, hd⟩
    refine (Dfa.lang_iff (counter_wf hn b)).2 ⟨0, ?_, ?_⟩
    · have : (counter n b).initialState = 0 := rfl
      rw [this, counter_run b w 0 hn ho, Nat.zero_add, Nat.mod_eq_zero_of_dvd hd]
    · simp [Dfa.state, counter, hn]

/-- A DFA for words whose numbers of `a` and `b` are multiples of `n` and `m` needs `n * m` states. -/
private theorem both_large {n m : Nat} (hn : 0 < n) (hm : 0 < m) (x : Dfa) (hx : x.WF)
    (hl : ∀ w, x.Lang w ↔ (counter n true).Lang w ∧ (counter m false).Lang w) : n * m ≤ x.states.length := by
  have hl' : ∀ w, x.Lang w ↔ Over [c!"a", c!"b"] w ∧ n ∣ w.count c!"a" ∧ m ∣ w.count c!"b" := by
    intro w
    rw [hl, counter_lang hn, counter_lang hm]
    simp only [if_true, Bool.false_eq_true, if_false]
    tauto
  let f : Nat → Nat → Word := fun i j => List.replicate i c!"a" ++ List.replicate j c!"b"
  have hover : ∀ i j, Over [c!"a", c!"b"] (f i j) := by
    intro i j e he
    rcases List.mem_append.1 he with he | he <;> rw [List.eq_of_mem_replicate he] <;> decide
  have ca : ∀ i j, (f i j).count c!"a" = i := fun i j => by
    simp only [f, List.count_append, List.count_replicate, beq_self_eq_true, if_true]
    rw [if_neg (by decide)]; rfl
  have cb : ∀ i j, (f i j).count c!"b" = j := fun i j => by
    simp only [f, List.count_append, List.count_replicate, beq_self_eq_true, if_true]
    rw [if_neg (by decide), Nat.zero_add]
  have hL : ∀ i j k l, x.Lang (f i j ++ f k l) ↔ n ∣ i + k ∧ m ∣ j + l := by
    intro i j k l
    rw [hl', List.count_append (l₁ := f i j), List.count_append (l₁ := f i j), ca, ca, cb, cb]
    refine ⟨fun h => h.2, fun h => ⟨fun e he => ?_, h⟩⟩
    rcases List.mem_append.1 he with he | he
    · exact hover _ _ e he
    · exact hover _ _ e he
  have uniq : ∀ (N i k : Nat), i < N → k < N → N ∣ k + (N - i) → i = k := by
    intro N i k hi hk hd
    obtain ⟨c, hc⟩ := hd
    have : c = 1 := by
      have h1 : 0 < c := by rcases Nat.eq_zero_or_pos c with rfl | h; · omega
                            · exact h
      have h2 : c < 2 := by
        by_contra h3
        have : N * 2 ≤ N * c := Nat.mul_le_mul_left N (by omega)
        omega
      omega
    subst this
    omega
  have := states_ge x hx (fun p : Fin n × Fin m => f p.1 p.2) (by
    rintro ⟨i, j⟩ e he
    have : x.Lang (f i j ++ f (n - i) (m - j)) := (hL _ _ _ _).2
      ⟨⟨1, by omega⟩, ⟨1, by omega⟩⟩
    exact Dfa.over_of_lang hx this e (List.mem_append_left _ he)) (by
    rintro ⟨i, j⟩ ⟨k, l⟩ h
    have := (h (f (n - i) (m - j))).1 ((hL i j _ _).2 ⟨⟨1, by omega⟩, ⟨1, by omega⟩⟩)
    obtain ⟨h1, h2⟩ := (hL _ _ _ _).1 this
    have e1 := uniq n i k i.2 k.2 h1
    have e2 := uniq m j l j.2 l.2 h2
    exact Prod.ext (Fin.ext e1) (Fin.ext e2))
  simpa using this

/-- **C118** Products of DFAs may need all pairs of states: for all `n` and `m` there are valid DFAs with `n` and `m` states over the same two
elements such that `intersection`, and `union` of the inverses, have exactly `n * m` states, as many as they can have at most (C10), also when
minimized; and every valid DFA with the language of the intersection has as many. -/
theorem C118_product (n m : Nat) (hn : 0 < n) (hm : 0 < m) :
    ∃ d o : Dfa, d.WF ∧ o.WF ∧ d.alphabet = o.alphabet ∧ d.states.length = n ∧ o.states.length = m ∧
      (∀ x : Dfa, x.WF → (∀ w, x.accepts w = (d.accepts w && o.accepts w)) → n * m ≤ x.states.length) ∧
      ∀ ord : List (Nat × Nat) → List (Nat × Nat), (∀ l, (ord l).Perm l) →
        ∃ p q, Dfa.intersection ord d o = some (some p) ∧ Dfa.union ord d.invert o.invert = some (some q) ∧
          p.states.length = n * m ∧ q.states.length = n * m ∧
          ∀ ordU ordC ordK : List Nat → List Nat, (∀ l, (ordU l).Perm l) → (∀ l, (ordC l).Perm l) → (∀ l, (ordK l).Perm l) →
            (p.minimize ordU ordC ordK).map (·.states.length) = some (n * m) ∧
            (q.minimize ordU ordC ordK).map (·.states.length) = some (n * m) := by
  have hd := counter_wf hn true
  have ho := counter_wf hm false
  have hlen : ∀ k b, (counter k b).states.length = k := by intro k b; simp [counter]
  refine ⟨counter n true, counter m false, hd, ho, rfl, hlen n true, hlen m false, ?_, ?_⟩
  · intro x hx h
    refine both_large hn hm x hx (fun w => ?_)
    rw [← C01_dfa_accepts_iff _ hx, ← C01_dfa_accepts_iff _ hd, ← C01_dfa_accepts_iff _ ho, h, Bool.and_eq_true]
  · intro ord hord
    have hs : SameElems (counter n true).alphabet (counter m false).alphabet := by intro e; rfl
    have hs' : SameElems (counter n true).invert.alphabet (counter m false).invert.alphabet := by intro e; rfl
    have hdi := (C07_invert_complement _ hd []).1
    have hoi := (C07_invert_complement _ ho []).1
    obtain ⟨_, ⟨p, p1, p2, p3, p4⟩, _⟩ := (C09_dfa_set_operations ord hord _ _ hd ho).2 hs
    obtain ⟨⟨q, q1, q2, q3, q4⟩, _⟩ := (C09_dfa_set_operations ord hord _ _ hdi hoi).2 hs'
    have hp := (C10_product_wf ord hord _ _ p hd ho _ p1).2.2
    have hq := (C10_product_wf ord hord _ _ q hdi hoi _ q1).2.2
    have hinv : ∀ y : Dfa, y.invert.states.length = y.states.length := fun y => (C07_invert_structure y).2.2.1
    rw [hlen, hlen] at hp
    rw [hinv, hinv, hlen, hlen] at hq
    have large : ∀ y : Dfa, y.WF → y.alphabet = [c!"a", c!"b"] →
        (∀ w, y.Lang w ↔ (counter n true).invert.Lang w ∨ (counter m false).invert.Lang w) → n * m ≤ y.states.length := by
      intro y hy ha hl
      rw [← hinv y]
      refine both_large hn hm y.invert (C07_invert_complement y hy []).1 (fun w => ?_)
      rw [(C07_invert_complement y hy w).2.1, hl, (C07_invert_complement _ hd w).2.1, (C07_invert_complement _ ho w).2.1, ha]
      have e1 : (counter n true).Lang w → Over [c!"a", c!"b"] w := fun h => Dfa.over_of_lang hd h
      have e2 : (counter n true).alphabet = [c!"a", c!"b"] := rfl
      have e3 : (counter m false).alphabet = [c!"a", c!"b"] := rfl
      rw [e2, e3]
      tauto
    have hpl := both_large hn hm p p2 p4
    have hql := large q q2 q3 q4
    refine ⟨p, q, p1, q1, by omega, by omega, fun ordU ordC ordK hU hC hK => ?_⟩
    obtain ⟨p', a1, a2, a3, a4, a5⟩ := C16_minimize ordU ordC ordK hU hC hK p p2
    obtain ⟨q', b1, b2, b3, b4, b5⟩ := C16_minimize ordU ordC ordK hU hC hK q q2
    have h1 := both_large hn hm p' a2 (fun w => (a4 w).trans (p4 w))
    have h2 := large q' b2 (b3.trans q3) (fun w => (b4 w).trans (q4 w))
    have h3 := a5 p p2 (by intro e; rfl) (fun _ => Iff.rfl)
    have h4 := b5 q q2 (by intro e; rfl) (fun _ => Iff.rfl)
    rw [a1, b1]
    constructor <;> simp <;> omega

/-- Two and three states: six. -/
example : ((Dfa.intersection id (counter 2 true) (counter 3 false)).bind id).map (·.states.length) = some 6 := by decide +kernel

/-! ## The subset construction -/

private theorem circle_wf {n : Nat} (hn : 0 < n) : (circle n).WF where
  alphabet_nodup := (by decide : [c!"a", c!"b", c!"c"].Nodup)
  names_nodup := by
    simp only [circle, List.map_map]
    exact List.Nodup.map (fun _ _ h => numStr_inj h) List.nodup_range
  row_len := by simp [circle]
  targets := by
    intro st hst ts hts t ht
    simp only [circle, List.mem_map, List.mem_range, List.length_map, List.length_range] at hst ⊢
    obtain ⟨i, hi, rfl⟩ := hst
    simp only [List.mem_cons, List.not_mem_nil, or_false] at hts
    rcases hts with rfl | rfl | rfl
    · rw [List.mem_singleton] at ht
      rw [ht]; exact Nat.mod_lt _ hn
    · split at ht
      · exact List.mem_range.1 ht
      · rw [List.mem_singleton] at ht; omega
    · split at ht
      · cases ht
      · rw [List.mem_singleton] at ht; omega
  eps_targets := by
    intro st hst t ht
    simp only [circle, List.mem_map] at hst
    obtain ⟨i, hi, rfl⟩ := hst
    cases ht
  init_lt := by simpa [circle] using hn
  init_flag := by
    intro i st hi
    simp only [circle, List.getElem?_map, Option.map_eq_some_iff] at hi ⊢
    obtain ⟨j, hj, rfl⟩ := hi
    obtain ⟨_, hj⟩ := List.getElem?_eq_some_iff.1 hj
    simp only [List.getElem_range] at hj
    subst hj
    simp

private theorem circle_state {n q : Nat} {st : NfaState} (h : (circle n).states[q]? = some st) : q < n ∧
    st = ⟨numStr q, decide (q = 0), decide (q = 0), [], [[(q + 1) % n], if q = 0 then List.range n else [q], if q = 0 then [] else [q]]⟩ := by
  simp only [circle, List.getElem?_map, Option.map_eq_some_iff] at h
  obtain ⟨j, hj, rfl⟩ := h
  obtain ⟨hlt, hj⟩ := List.getElem?_eq_some_iff.1 hj
  simp only [List.getElem_range] at hj
  subst hj
  exact ⟨by simpa using hlt, rfl⟩

private theorem circle_get {n q : Nat} (h : q < n) : (circle n).states[q]? =
    some ⟨numStr q, decide (q = 0), decide (q = 0), [], [[(q + 1) % n], if q = 0 then List.range n else [q], if q = 0 then [] else [q]]⟩ := by
  simp [circle, h]

private theorem circle_nil {n q r : Nat} : (circle n).Path q [] r ↔ q = r := by
  constructor
  · intro h
    cases h with
    | nil => rfl
    | eps h1 h2 _ => rw [(circle_state h1).2] at h2; cases h2
  · rintro rfl; exact .nil _

private theorem circle_a {n q r : Nat} {w : Word} : (circle n).Path q (c!"a" :: w) r ↔ q < n ∧ (circle n).Path ((q + 1) % n) w r := by
  constructor
  · intro h
    cases h with
    | eps h1 h2 _ => rw [(circle_state h1).2] at h2; cases h2
    | @step _ i t _ _ _ st ts h1 h2 h3 h4 h5 =>
      obtain ⟨hq, rfl⟩ := circle_state h1
      refine ⟨hq, ?_⟩
      match i, h2, h3 with
      | 0, _, h3 =>
        simp only [List.getElem?_cons_zero, Option.some.injEq] at h3
        subst h3
        rw [List.mem_singleton] at h4
        exact h4 ▸ h5
      | 1, h2, _ => simp [circle] at h2
      | 2, h2, _ => simp [circle] at h2
      | i + 3, h2, _ => simp [circle] at h2
  · rintro ⟨hq, h⟩
    exact .step (i := 0) (circle_get hq) rfl rfl (List.mem_singleton.2 rfl) h

private theorem circle_b {n r : Nat} (hn : 0 < n) {w : Word} : (circle n).Path 0 (c!"b" :: w) r ↔ ∃ t < n, (circle n).Path t w r := by
  constructor
  · intro h
    cases h with
    | eps h1 h2 _ => rw [(circle_state h1).2] at h2; cases h2
    | @step _ i t _ _ _ st ts h1 h2 h3 h4 h5 =>
      obtain ⟨hq, rfl⟩ := circle_state h1
      match i, h2, h3 with
      | 0, h2, _ => simp [circle] at h2
      | 1, _, h3 =>
        simp only [List.getElem?_cons_succ, List.getElem?_cons_zero, Option.some.injEq, if_true] at h3
        subst h3
        exact ⟨t, List.mem_range.1 h4, h5⟩
      | 2, h2, _ => simp [circle] at h2
      | i + 3, h2, _ => simp [circle] at h2
  · rintro ⟨t, ht, h⟩
    exact .step (i := 1) (circle_get hn) rfl rfl (by simpa using ht) h

private theorem circle_c {n q r : Nat} {w : Word} : (circle n).Path q (c!"c" :: w) r ↔ (q < n ∧ q ≠ 0) ∧ (circle n).Path q w r := by
  constructor
  · intro h
    cases h with
    | eps h1 h2 _ => rw [(circle_state h1).2] at h2; cases h2
    | @step _ i t _ _ _ st ts h1 h2 h3 h4 h5 =>
      obtain ⟨hq, rfl⟩ := circle_state h1
      match i, h2, h3 with
      | 0, h2, _ => simp [circle] at h2
      | 1, h2, _ => simp [circle] at h2
      | 2, _, h3 =>
        simp only [List.getElem?_cons_succ, List.getElem?_cons_zero, Option.some.injEq] at h3
        subst h3
        split at h4
        · cases h4
        · rw [List.mem_singleton] at h4
          subst h4
          exact ⟨⟨hq, by assumption⟩, h5⟩
      | i + 3, h2, _ => simp [circle] at h2
  · rintro ⟨⟨hq, hq0⟩, h⟩
    exact .step (i := 2) (circle_get hq) rfl rfl (by simp [hq0]) h

/-- One round: each state that comes by and is not in the set is taken out. -/
private def roundW (n : Nat) (T : Nat → Bool) : Nat → Word
  | 0 => []
  | k + 1 => (if T (k + 1) then [] else [c!"c"]) ++ c!"a" :: roundW n T k

/-- The last `k` steps of a round lead exactly the states still to come that are in the set, and those that have come by, to where they began. -/
private theorem round_path {n : Nat} (T : Nat → Bool) (v : Word) (r : Nat) : ∀ (k q : Nat), k ≤ n → q < n →
    ((circle n).Path q (roundW n T k ++ v) r ↔
      (∀ j, 0 < j → j ≤ k → (q + (k - j)) % n = 0 → T j = true) ∧ (circle n).Path ((q + k) % n) v r)
  | 0, q, _, hq => by
    simp only [roundW, List.nil_append, Nat.add_zero, Nat.mod_eq_of_lt hq]
    refine ⟨fun h => ⟨fun j h1 h2 => by omega, h⟩, fun h => h.2⟩
  | k + 1, q, hk, hq => by
    have hn : 0 < n := by omega
    have hlt := Nat.mod_lt (q + 1) hn
    have ih := round_path T v r k ((q + 1) % n) (by omega) hlt
    have e1 : ∀ j, ((q + 1) % n + j) % n = (q + 1 + j) % n := fun j => by simp [Nat.add_mod]
    rw [e1, show q + 1 + k = q + (k + 1) by omega] at ih
    have hstep : (circle n).Path q (roundW n T (k + 1) ++ v) r ↔
        (q = 0 → T (k + 1) = true) ∧ (circle n).Path ((q + 1) % n) (roundW n T k ++ v) r := by
      rw [roundW]
      cases hT : T (k + 1) with
      | true =>
        simp only [if_true, List.nil_append, List.cons_append, circle_a]
        exact ⟨fun h => ⟨fun _ => trivial, h.2⟩, fun h => ⟨hq, h.2⟩⟩
      | false =>
        simp only [Bool.false_eq_true, if_false, List.cons_append, List.nil_append, circle_c, circle_a, imp_false]
        exact ⟨fun h => ⟨h.1.2, h.2.2⟩, fun h => ⟨⟨hq, h.1⟩, hq, h.2⟩⟩
    rw [hstep, ih]
    have e2 : (∀ j, 0 < j → j ≤ k + 1 → (q + (k + 1 - j)) % n = 0 → T j = true) ↔
        (q = 0 → T (k + 1) = true) ∧ ∀ j, 0 < j → j ≤ k → ((q + 1) % n + (k - j)) % n = 0 → T j = true := by
      constructor
      · intro h
        refine ⟨fun h0 => h (k + 1) (by omega) (Nat.le_refl _) (by subst h0; simp), fun j h1 h2 h3 => h j h1 (by omega) ?_⟩
        rw [e1] at h3
        rw [← h3]; congr 1; omega
      · rintro ⟨h1, h2⟩ j h3 h4 h5
        rcases Nat.lt_or_ge k j with h6 | h6
        · obtain rfl : j = k + 1 := by omega
          rw [Nat.sub_self, Nat.add_zero, Nat.mod_eq_of_lt hq] at h5
          exact h1 h5
        · refine h2 j h3 h6 ?_
          rw [e1, ← h5]; congr 1; omega
    rw [e2]
    tauto

private theorem as_path {n : Nat} (r : Nat) : ∀ (k q : Nat), q < n →
    ((circle n).Path q (List.replicate k c!"a") r ↔ (q + k) % n = r)
  | 0, q, hq => by rw [List.replicate_zero, circle_nil, Nat.add_zero, Nat.mod_eq_of_lt hq]
  | k + 1, q, hq => by
    rw [List.replicate_succ, circle_a, as_path r k _ (Nat.mod_lt _ (by omega))]
    have : ((q + 1) % n + k) % n = (q + (k + 1)) % n := by
      rw [Nat.mod_add_mod]; congr 1; omega
    rw [this]
    exact ⟨fun h => h.2, fun h => ⟨hq, h⟩⟩

/-- After all states, one round and further steps, what is accepted tells whether a state was in the set. -/
private theorem circle_tells {n : Nat} (hn : 0 < n) (T : Nat → Bool) (i : Nat) (hi : 0 < i) (hin : i ≤ n) :
    (circle n).Lang (c!"b" :: roundW n T n ++ List.replicate (n - i % n) c!"a") ↔ T i = true := by
  have key : ∀ q < n, ∀ r, (circle n).Path q (roundW n T n ++ List.replicate (n - i % n) c!"a") r ↔
      T (if q = 0 then n else q) = true ∧ (q + (n - i % n)) % n = r := by
    intro q hq r
    rw [round_path T _ r n q (Nat.le_refl _) hq, Nat.add_mod_right, Nat.mod_eq_of_lt hq, as_path r _ q hq]
    refine and_congr_left fun _ => ⟨fun h => ?_, fun h j h1 h2 h3 => ?_⟩
    · split
      · subst q; exact h n hn (Nat.le_refl _) (by simp)
      · exact h q (by omega) (by omega) (by rw [show q + (n - q) = n by omega, Nat.mod_self])
    · have : j = if q = 0 then n else q := by
        obtain ⟨c, hc⟩ := Nat.dvd_of_mod_eq_zero h3
        split
        · subst q
          rcases Nat.eq_zero_or_pos c with rfl | hc'
          · omega
          · have := Nat.mul_le_mul_left n hc'
            omega
        · rcases Nat.eq_zero_or_pos c with rfl | hc'
          · omega
          · have : c < 2 := by
              by_contra h4
              have := Nat.mul_le_mul_left n (Nat.le_of_not_lt h4)
              omega
            obtain rfl : c = 1 := by omega
            omega
      rw [this]; exact h
  have hacc : ∀ r, (circle n).Acc r ↔ r = 0 := by
    intro r
    constructor
    · rintro ⟨st, h1, h2⟩
      rw [(circle_state h1).2] at h2
      simpa using h2
    · rintro rfl
      exact ⟨_, circle_get hn, by simp⟩
  have hlt := Nat.mod_lt i hn
  constructor
  · rintro ⟨r, h1, h2⟩
    rw [hacc] at h2
    subst h2
    rw [List.cons_append] at h1
    obtain ⟨t, ht, h3⟩ := (circle_b hn).1 h1
    obtain ⟨h4, h5⟩ := (key t ht 0).1 h3
    have : t = i % n := by
      obtain ⟨c, hc⟩ := Nat.dvd_of_mod_eq_zero h5
      rcases Nat.eq_zero_or_pos c with rfl | hc'
      · omega
      · have : c < 2 := by
          by_contra h4
          have := Nat.mul_le_mul_left n (Nat.le_of_not_lt h4)
          omega
        obtain rfl : c = 1 := by omega
        omega
    rcases Nat.lt_or_eq_of_le hin with h6 | rfl
    · rw [Nat.mod_eq_of_lt h6] at this
      rw [this, if_neg (by omega)] at h4
      exact h4
    · rw [Nat.mod_self] at this
      rw [this, if_pos rfl] at h4
      exact h4
  · intro h
    refine ⟨0, ?_, (hacc 0).2 rfl⟩
    rw [List.cons_append]
    refine (circle_b hn).2 ⟨i % n, hlt, (key _ hlt 0).2 ⟨?_, by rw [show i % n + (n - i % n) = n by omega, Nat.mod_self]⟩⟩
    rcases Nat.lt_or_eq_of_le hin with h6 | rfl
    · rw [Nat.mod_eq_of_lt h6, if_neg (by omega)]; exact h
    · rw [Nat.mod_self, if_pos rfl]; exact h

private theorem circle_large {n : Nat} (hn : 0 < n) (x : Dfa) (hx : x.WF) (hs : SameElems x.alphabet (circle n).alphabet)
    (hl : ∀ w, x.Lang w ↔ (circle n).Lang w) : 2 ^ n ≤ x.states.length := by
  classical
  let T : (Fin n → Bool) → Nat → Bool := fun S j => if h : 0 < j ∧ j ≤ n then S ⟨j - 1, by omega⟩ else true
  have hT : ∀ S (i : Fin n), T S (i.1 + 1) = S i := by
    intro S i
    simp only [T]
    rw [dif_pos ⟨by omega, i.2⟩]
    rfl
  have htell : ∀ S (i : Fin n), x.Lang ((c!"b" :: roundW n (T S) n) ++ List.replicate (n - (i.1 + 1) % n) c!"a") ↔ S i = true := by
    intro S i
    rw [hl, circle_tells hn (T S) (i.1 + 1) (by omega) i.2, hT]
  have habc : ∀ w, Over [c!"a", c!"b", c!"c"] w → Over x.alphabet w := fun w hw e he => (hs e).2 (hw e he)
  have := states_ge x hx (fun S : Fin n → Bool => c!"b" :: roundW n (T S) n) (by
    intro S
    refine habc _ (fun e he => ?_)
    rcases List.mem_cons.1 he with rfl | he
    · simp
    · generalize hk : roundW n (T S) n = v at he
      have : ∀ k, ∀ e ∈ roundW n (T S) k, e = c!"a" ∨ e = c!"c" := by
        intro k
        induction k with
        | zero => intro e he; cases he
        | succ k ih =>
          intro e he
          rw [roundW] at he
          rcases List.mem_append.1 he with he | he
          · split at he
            · cases he
            · rw [List.mem_singleton] at he; exact .inr he
          · rcases List.mem_cons.1 he with rfl | he
            · exact .inl rfl
            · exact ih e he
      rcases this n e (hk ▸ he) with rfl | rfl <;> simp) (by
    intro S S' h
    funext i
    rw [Bool.eq_iff_iff, ← htell S i, ← htell S' i]
    exact h _)
  simpa [Fintype.card_fun] using this

/-- **C118** The subset construction may need all sets of states: for every `n` there is a valid NFA with `n` states over three elements, without
epsilon moves, for which `to_dfa` makes exactly `2 ^ n` states, as many as it can make at most (C19); no two of them can be merged, and every
valid DFA with the same elements and language has as many. -/
theorem C118_to_dfa (n : Nat) (hn : 0 < n) :
    ∃ x : Nfa, x.WF ∧ x.states.length = n ∧ x.alphabet.length = 3 ∧ x.hasEpsilonMoves = false ∧
      (∀ d : Dfa, d.WF → SameElems d.alphabet x.alphabet → (∀ w, d.accepts w = x.accepts w) → 2 ^ n ≤ d.states.length) ∧
      ∃ d, x.toDfa = some d ∧ d.states.length = 2 ^ n ∧
        ∀ ordU ordC ordK : List Nat → List Nat, (∀ l, (ordU l).Perm l) → (∀ l, (ordC l).Perm l) → (∀ l, (ordK l).Perm l) →
          (d.minimize ordU ordC ordK).map (·.states.length) = some (2 ^ n) := by
  have hw := circle_wf hn
  have hlen : (circle n).states.length = n := by simp [circle]
  refine ⟨circle n, hw, hlen, rfl, by simp [Nfa.hasEpsilonMoves, circle], ?_, ?_⟩
  · intro d hd hs h
    refine circle_large hn d hd hs (fun w => ?_)
    rw [← C01_dfa_accepts_iff _ hd, ← C02_nfa_accepts_iff _ hw, h]
  · obtain ⟨d, h1, h2, h3, h4, _⟩ := C19_to_dfa _ hw
    have h5 := (C19_to_dfa_shape _ hw d h1).2.2.2
    rw [hlen] at h5
    have h6 := circle_large hn d h2 (by rw [h3]; intro e; rfl) h4
    refine ⟨d, h1, by omega, fun ordU ordC ordK hU hC hK => ?_⟩
    obtain ⟨m, a1, a2, a3, a4, a5⟩ := C16_minimize ordU ordC ordK hU hC hK d h2
    have h7 := circle_large hn m a2 (by rw [a3, h3]; intro e; rfl) (fun w => (a4 w).trans (h4 w))
    have h8 := a5 d h2 (by intro e; rfl) (fun _ => Iff.rfl)
    rw [a1]
    simp only [Option.map_some, Option.some.injEq]
    omega

/-- Three states: eight sets, the empty one included. -/
example : (circle 3).toDfa.map (·.states.length) = some 8 := by decide +kernel

/-! ## Products of NFAs -/

private theorem stopper_wf {n : Nat} (hn : 0 < n) (b : Bool) : (stopper n b).WF where
  alphabet_nodup := (by decide : [c!"a", c!"b", c!"c", c!"d"].Nodup)
  names_nodup := by
    simp only [stopper, List.map_map]
    exact List.Nodup.map (fun _ _ h => numStr_inj h) List.nodup_range
  row_len := by cases b <;> simp [stopper]
  targets := by
    intro st hst ts hts t ht
    simp only [stopper, List.mem_map, List.mem_range, List.length_map, List.length_range] at hst ⊢
    obtain ⟨i, hi, rfl⟩ := hst
    have := Nat.mod_lt (i + 1) hn
    cases b <;> simp at hts <;> rcases hts with rfl | rfl | rfl | rfl <;> simp at ht <;> omega
  eps_targets := by
    intro st hst t ht
    simp only [stopper, List.mem_map] at hst
    obtain ⟨i, hi, rfl⟩ := hst
    cases ht
  init_lt := by simpa [stopper] using hn
  init_flag := by
    intro i st hi
    simp only [stopper, List.getElem?_map, Option.map_eq_some_iff] at hi ⊢
    obtain ⟨j, hj, rfl⟩ := hi
    obtain ⟨_, hj⟩ := List.getElem?_eq_some_iff.1 hj
    simp only [List.getElem_range] at hj
    subst hj
    simp

private theorem stopper_step {n i : Nat} (hi : i < n) (b : Bool) (t : Nat) :
    ((stopper n b).Step i c!"a" t ↔ t = if b then (i + 1) % n else i) ∧ ((stopper n b).Step i c!"b" t ↔ t = if b then i else (i + 1) % n) ∧
    ((stopper n b).Step i c!"c" t ↔ b = false ∧ t = i) ∧ ((stopper n b).Step i c!"d" t ↔ b = true ∧ t = i) := by
  have key : ∀ (k : Nat) (e : Str), [c!"a", c!"b", c!"c", c!"d"][k]? = some e →
      ((stopper n b).Step i e t ↔ t ∈ (stopper n b).tr i k) := by
    intro k e hk
    constructor
    · rintro ⟨j, h1, h2⟩
      have hnd : [c!"a", c!"b", c!"c", c!"d"].Nodup := by decide
      have : j = k := (List.getElem?_inj (List.getElem?_eq_some_iff.1 h1).1 hnd).1 (h1.trans hk.symm)
      exact this ▸ h2
    · exact fun h => ⟨k, hk, h⟩
  have htr : ∀ k, (stopper n b).tr i k = (if b then [[(i + 1) % n], [i], [], [i]] else [[i], [(i + 1) % n], [i], []]).getD k [] := by
    intro k
    simp [Nfa.tr, Nfa.state, stopper, hi]
  rw [key 0 _ rfl, key 1 _ rfl, key 2 _ rfl, key 3 _ rfl, htr, htr, htr, htr]
  cases b <;> simp

/-- **C118** Products of NFAs may have all the pairs, and more: for all `n` and `m` there are valid NFAs with `n` and `m` states without epsilon
moves, for which every product (in particular `intersection`) has exactly `n * m + n + m` states, as many as it can have at most (C83). -/
theorem C118_nfa_product (n m : Nat) (hn : 0 < n) (hm : 0 < m) :
    ∃ x y : Nfa, x.WF ∧ y.WF ∧ x.states.length = n ∧ y.states.length = m ∧ x.hasEpsilonMoves = false ∧ y.hasEpsilonMoves = false ∧
      ∀ ord : List Nfa.OPair → List Nfa.OPair, (∀ l, (ord l).Perm l) →
        (∀ comb, ∃ p, Nfa.product ord x y comb = some (some p) ∧ p.states.length = n * m + n + m) ∧
        ∃ p, Nfa.intersection ord x y = some (some p) ∧ p.states.length = n * m + n + m := by
  have hx := stopper_wf hn true
  have hy := stopper_wf hm false
  have hlen : ∀ k b, (stopper k b).states.length = k := by intro k b; simp [stopper]
  have heps : ∀ k b, (stopper k b).hasEpsilonMoves = false := by intro k b; simp [Nfa.hasEpsilonMoves, stopper]
  have hs : SameElems (stopper n true).alphabet (stopper m false).alphabet := by intro e; rfl
  refine ⟨stopper n true, stopper m false, hx, hy, hlen _ _, hlen _ _, heps _ _, heps _ _, fun ord hord => ?_⟩
  have key : ∀ comb, ∃ p, Nfa.product ord (stopper n true) (stopper m false) comb = some (some p) ∧ p.states.length = n * m + n + m := by
    intro comb
    obtain ⟨ks, g, h1, hks, _⟩ := Nfa.product_eq hord hx hy hs comb
    refine ⟨_, h1, ?_⟩
    have hub := C83_nfa_product ord hord _ _ _ hx hy comb h1
    rw [hlen, hlen] at hub
    have hexp : (n + 1) * (m + 1) = n * m + n + m + 1 := by rw [Nat.add_mul, Nat.mul_add]; omega
    have succ : ∀ {p p' : Nfa.OPair} (e : Str), e ∈ [c!"a", c!"b", c!"c", c!"d"] → p ∈ ks →
        Nfa.PStep (stopper n true) (stopper m false) e p p' → p' ∈ ks :=
      fun e he hp h => hks.succ hp ((Nfa.mem_psucc hx hy hs).2 (.inl ⟨e, he, h⟩))
    have st : ∀ {k i : Nat} (hi : i < k) (b : Bool) (t : Nat), _ := fun {k i} hi b t => stopper_step (n := k) (i := i) hi b t
    have hij : ∀ i < n, ∀ j < m, ((some i, some j) : Nfa.OPair) ∈ ks := by
      intro i hi
      have h0 : ((some i, some 0) : Nfa.OPair) ∈ ks := by
        induction i with
        | zero => exact hks.init
        | succ i ih =>
          refine succ c!"a" (by simp) (ih (by omega)) ⟨((st (by omega) true _).1).2 ?_, ((st hm false _).1).2 rfl, by simp⟩
          rw [if_pos rfl, Nat.mod_eq_of_lt hi]
      intro j hj
      induction j with
      | zero => exact h0
      | succ j ih =>
        refine succ c!"b" (by simp) (ih (by omega)) ⟨((st hi true _).2.1).2 rfl, ((st (by omega) false _).2.1).2 ?_, by simp⟩
        rw [if_neg (by simp), Nat.mod_eq_of_lt hj]
    have hi0 : ∀ i < n, ((some i, none) : Nfa.OPair) ∈ ks := by
      intro i hi
      refine succ c!"d" (by simp) (hij i hi 0 hm) ⟨((st hi true _).2.2.2).2 ⟨rfl, rfl⟩, ?_, by simp⟩
      intro t ht
      have := ((st hm false t).2.2.2).1 ht
      simp at this
    have h0j : ∀ j < m, ((none, some j) : Nfa.OPair) ∈ ks := by
      intro j hj
      refine succ c!"c" (by simp) (hij 0 hn j hj) ⟨?_, ((st hj false _).2.2.1).2 ⟨rfl, rfl⟩, by simp⟩
      intro t ht
      have := ((st hn true t).2.2.1).1 ht
      simp at this
    have hsub : ∀ k ∈ ((none :: (List.range n).map some) ×ˢ (none :: (List.range m).map some) : List Nfa.OPair), k ∈ (none, none) :: ks := by
      rintro ⟨a, b⟩ hk
      obtain ⟨ha, hb⟩ := List.mem_product.1 hk
      cases a with
      | none =>
        cases b with
        | none => simp
        | some j => exact List.mem_cons_of_mem _ (h0j j (by simpa using hb))
      | some i =>
        cases b with
        | none => exact List.mem_cons_of_mem _ (hi0 i (by simpa using ha))
        | some j => exact List.mem_cons_of_mem _ (hij i (by simpa using ha) j (by simpa using hb))
    have hnd : ∀ k, (none :: (List.range k).map some).Nodup := by
      intro k
      exact List.nodup_cons.2 ⟨by simp, List.Nodup.map (fun _ _ h => Option.some.inj h) List.nodup_range⟩
    have := nodup_subset_length_le (List.Nodup.product (hnd n) (hnd m)) hsub
    rw [List.length_product] at this
    simp only [List.length_cons, List.length_map, List.length_range] at this
    simp only [Nfa.prodN, List.length_map] at hub ⊢
    omega
  exact ⟨key, key _⟩

/-- Two and three states: eleven. -/
example : ((Nfa.intersection id (stopper 2 true) (stopper 3 false)).bind id).map (·.states.length) = some 11 := by decide +kernel

end Dandy
