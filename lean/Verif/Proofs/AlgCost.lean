import Verif.Model.AlgCost
import Verif.Proofs.Hopcroft
import Verif.Proofs.DfaProduct
import Verif.Proofs.Minimize
import Verif.Proofs.DfaQuot
import Mathlib.Tactic.Ring
import Mathlib.Tactic.Linarith
import Mathlib.Algebra.Order.BigOperators.Group.List
/-! # The work of the algorithms on DFAs: helper lemmas for C92 -/

namespace Dandy

theorem exploreCost_le {σ κ : Type} [DecidableEq κ] {key : σ → κ} {succ : σ → List σ} {ok : σ → Bool} {test work : σ → Nat} {B : Nat}
    (Inv : σ → Prop) (hInv : ∀ s, Inv s → ∀ t ∈ succ s, Inv t) (hB : ∀ s, Inv s → test s + work s ≤ B) :
    ∀ (k : Nat) (stack seen : List σ), (∀ s ∈ stack, Inv s) → (seen.map key).Nodup →
      exploreCost key succ ok test work k stack seen ≤ k * (1 + B)
  | 0, _, _, _, _ => by simp [exploreCost]
  | k + 1, [], _, _, _ => by
    have : 1 ≤ (k + 1) * (1 + B) := Nat.one_le_iff_ne_zero.2 (by positivity)
    simpa [exploreCost] using this
  | k + 1, s :: stack, seen, h, hn => by
    have hb := hB s (h s (by simp))
    rw [exploreCost, Nat.succ_mul]
    split
    · obtain ⟨new, he, h1, h2, _⟩ := pushNew_spec (succ s) stack seen hn
      dsimp only
      rw [he]
      have := exploreCost_le (test := test) (work := work) (ok := ok) Inv hInv hB k (new.reverse ++ stack) (seen ++ new) (by
        intro t ht
        rw [List.mem_append, List.mem_reverse] at ht
        rcases ht with ht | ht
        · exact hInv s (h s (by simp)) t (h1 t ht)
        · exact h t (by simp [ht])) h2
      dsimp only
      omega
    · omega

/-- When the exploration is not stopped, the work is that of the explored items. -/
theorem exploreCost_eq {σ κ : Type} [DecidableEq κ] {key : σ → κ} {succ : σ → List σ} {ok : σ → Bool} {test work : σ → Nat} :
    ∀ (k : Nat) (stack seen out : List σ) (o r : List σ), explore key succ ok k stack seen out = some (some (o, r)) →
      exploreCost key succ ok test work k stack seen + (out.map (fun s => 1 + test s + work s)).sum =
        1 + (o.map (fun s => 1 + test s + work s)).sum
  | 0, _, _, _, _, _, h => by simp [explore] at h
  | k + 1, [], seen, out, o, r, h => by
    simp only [explore, Option.some.injEq, Prod.mk.injEq] at h
    rw [exploreCost, ← h.1]
  | k + 1, s :: stack, seen, out, o, r, h => by
    rw [explore] at h
    split at h
    · rename_i hs
      rw [exploreCost, if_pos hs]
      have := exploreCost_eq (test := test) (work := work) k _ _ _ o r h
      simp only [List.map_append, List.sum_append, List.map_cons, List.map_nil, List.sum_cons, List.sum_nil] at this
      dsimp only at this ⊢
      omega
    · simp at h

/-- The bound on the number of rounds does not cut the work short. -/
theorem exploreCost_more {σ κ : Type} [DecidableEq κ] {key : σ → κ} {succ : σ → List σ} {ok : σ → Bool} {test work : σ → Nat} (j : Nat) :
    ∀ (k : Nat) (stack seen out : List σ), explore key succ ok k stack seen out ≠ none →
      exploreCost key succ ok test work (k + j) stack seen = exploreCost key succ ok test work k stack seen
  | 0, _, _, _, h => by simp [explore] at h
  | k + 1, [], _, _, _ => by rw [Nat.add_right_comm, exploreCost, exploreCost]
  | k + 1, s :: stack, seen, out, h => by
    rw [explore] at h
    rw [Nat.add_right_comm, exploreCost, exploreCost]
    split
    · rename_i hs
      rw [if_pos hs] at h
      dsimp only at h ⊢
      rw [exploreCost_more j k _ _ _ h]
    · rfl

theorem bfsCost_more {succ : Nat → Option (List Nat)} {work : Nat → Nat} (j : Nat) :
    ∀ (k : Nat) (all new : List Nat), bfs succ k all new ≠ none → bfsCost succ work (k + j) all new = bfsCost succ work k all new
  | 0, _, _, h => by simp [bfs] at h
  | k + 1, all, new, h => by
    rw [bfs] at h
    rw [Nat.add_right_comm, bfsCost, bfsCost]
    split
    · rfl
    · rename_i hn
      rw [if_neg hn] at h
      cases hm : new.mapM succ with
      | none => rfl
      | some ls =>
        rw [hm] at h
        dsimp only at h ⊢
        rw [bfsCost_more j k _ _ h]

theorem bfsCost_le {succ : Nat → Option (List Nat)} {work : Nat → Nat} {f : Nat → List Nat} {n B : Nat}
    (hsucc : ∀ q < n, succ q = some (f q)) (hf : ∀ q < n, ∀ t ∈ f q, t < n) (hB : ∀ q < n, work q + (f q).length ≤ B) :
    ∀ (k : Nat) (all new : List Nat), all.Pairwise (· < ·) → (∀ x ∈ all, x < n) → (∀ x ∈ new, x ∈ all) →
      bfsCost succ work k all new ≤ 1 + (n - all.length + new.length) * (1 + B)
  | 0, _, _, _, _, _ => by simp [bfsCost]
  | k + 1, all, new, h1, h2, h3 => by
    rw [bfsCost]
    split
    · omega
    · rename_i hne
      have hm : new.mapM succ = some (new.map f) := by
        clear hne
        induction new with
        | nil => rfl
        | cons q new ih =>
          rw [List.mapM_cons, hsucc q (h2 q (h3 q (by simp))), ih (fun x hx => h3 x (by simp [hx]))]
          rfl
      rw [hm]
      dsimp only
      obtain ⟨a1, a2, a3, a4⟩ := addNew_spec (new.map f).flatten all [] h1
      have hlt : ∀ x ∈ (addNew (new.map f).flatten (all, [])).1, x < n := by
        intro x hx
        rcases (a2 x).1 hx with hx | hx
        · exact h2 x hx
        · rw [List.mem_flatten] at hx
          obtain ⟨l, hl, hx⟩ := hx
          obtain ⟨q, hq, rfl⟩ := List.mem_map.1 hl
          exact hf q (h2 q (h3 q hq)) x hx
      have ih := bfsCost_le (work := work) hsucc hf hB k (addNew (new.map f).flatten (all, [])).1 (addNew (new.map f).flatten (all, [])).2 a1 hlt
        (fun x hx => by
          rcases (a3 x).1 hx with hx | hx
          · simp at hx
          · exact (a2 x).2 (.inr hx.1))
      have hsum : (new.map work).sum + (new.map f).flatten.length ≤ new.length * B := by
        clear hne ih a1 a2 a3 a4 hlt hm
        induction new with
        | nil => simp
        | cons q new ih =>
          have e1 := hB q (h2 q (h3 q (by simp)))
          have e2 := ih (fun x hx => h3 x (by simp [hx]))
          simp only [List.map_cons, List.sum_cons, List.flatten_cons, List.length_append, List.length_cons, Nat.succ_mul]
          omega
      have hle := nodup_length_le (a1.imp (fun h => Nat.ne_of_lt h)) hlt
      have hpos : 1 ≤ new.length := List.length_pos_iff.2 hne
      have hall := nodup_length_le (h1.imp (fun h => Nat.ne_of_lt h)) h2
      simp only [List.length_nil, Nat.add_zero] at a4
      have e : n - (addNew (new.map f).flatten (all, [])).1.length + (addNew (new.map f).flatten (all, [])).2.length = n - all.length := by omega
      rw [e] at ih
      have e2 : (n - all.length + new.length) * (1 + B) = (n - all.length) * (1 + B) + new.length + new.length * B := by ring
      have key : 1 + ((new.map work).sum + ((new.map f).flatten.length +
          bfsCost succ work k (addNew (new.map f).flatten (all, [])).1 (addNew (new.map f).flatten (all, [])).2)) ≤
          1 + (n - all.length + new.length) * (1 + B) := by omega
      exact key

theorem log2_le (n : Nat) : Nat.log2 n ≤ n := by
  rcases Nat.eq_zero_or_pos n with rfl | h
  · decide
  · exact ((Nat.log2_lt (by omega)).2 Nat.lt_two_pow_self).le

namespace Dfa

theorem sum_map_le {α : Type} {l : List α} {f : α → Nat} {B : Nat} (h : ∀ x ∈ l, f x ≤ B) : (l.map f).sum ≤ l.length * B := by
  induction l with
  | nil => simp
  | cons x l ih =>
    have h1 := h x (by simp)
    have h2 := ih (fun y hy => h y (by simp [hy]))
    simp only [List.map_cons, List.sum_cons, List.length_cons, Nat.succ_mul]
    omega

theorem row_length {d : Dfa} (hd : d.WF) {q : Nat} (hq : q < d.states.length) : (d.state q).transitions.length = d.alphabet.length := by
  have : d.state q = d.states[q] := by rw [state, List.getD_eq_getElem?_getD, List.getElem?_eq_getElem hq]; rfl
  rw [this]
  exact hd.row_len _ (List.getElem_mem hq)

theorem row_lt {d : Dfa} (hd : d.WF) {q : Nat} (hq : q < d.states.length) : ∀ t ∈ (d.state q).transitions, t < d.states.length := by
  have : d.state q = d.states[q] := by rw [state, List.getD_eq_getElem?_getD, List.getElem?_eq_getElem hq]; rfl
  rw [this]
  exact hd.targets _ (List.getElem_mem hq)

theorem reachableCost_le {d : Dfa} (hd : d.WF) : d.reachableCost ≤ 2 + d.states.length * (d.alphabet.length + 2) := by
  have h := bfsCost_le (succ := fun q => some (d.state q).transitions) (work := fun _ => 1) (f := fun q => (d.state q).transitions)
    (n := d.states.length) (B := 1 + d.alphabet.length) (fun _ _ => rfl) (fun q hq => row_lt hd hq)
    (fun q hq => by rw [row_length hd hq]) (d.states.length + 1) [d.initialState] [d.initialState] (by simp) (by simpa using hd.init_lt) (by simp)
  have h1 := hd.init_lt
  simp only [List.length_cons, List.length_nil] at h
  rw [show d.states.length - (0 + 1) + (0 + 1) = d.states.length by omega] at h
  rw [reachableCost]
  have e : d.states.length * (1 + (1 + d.alphabet.length)) = d.states.length * (d.alphabet.length + 2) := by ring
  omega

theorem remapCost_le {d : Dfa} (hd : d.WF) (c : Nat) : d.remapCost c ≤ 1 + d.states.length * (1 + d.alphabet.length * c) := by
  rw [remapCost]
  have := sum_map_le (l := d.states) (f := fun s => 1 + s.transitions.length * c) (B := 1 + d.alphabet.length * c)
    (fun s hs => by rw [hd.row_len s hs])
  omega

theorem removeCost_le {d : Dfa} (hd : d.WF) {rm : List Nat} (hr : rm.length ≤ d.states.length) :
    d.removeCost rm ≤ 3 * (d.alphabet.length + 1) * (d.states.length + 1) ^ 2 := by
  have h1 := remapCost_le hd (searchCost d.states.length)
  have h2 := log2_le rm.length
  have h3 := log2_le d.states.length
  rw [removeCost, sortCost]
  rw [searchCost] at h1 ⊢
  have e1 : rm.length * (1 + Nat.log2 rm.length) ≤ d.states.length * (1 + d.states.length) := Nat.mul_le_mul hr (by omega)
  have e2 : rm.length * (1 + d.states.length) ≤ d.states.length * (1 + d.states.length) := Nat.mul_le_mul_right _ hr
  have e3 : d.states.length * (1 + d.alphabet.length * (1 + Nat.log2 d.states.length)) ≤
      d.states.length * (1 + d.alphabet.length * (1 + d.states.length)) :=
    Nat.mul_le_mul_left _ (Nat.add_le_add_left (Nat.mul_le_mul_left _ (by omega)) _)
  rw [searchCost]
  generalize d.states.length = n at *
  generalize d.alphabet.length = k at *
  have : 3 * (k + 1) * (n + 1) ^ 2 = (3 + 3 * n) + 3 * (n * (1 + n)) + n * (k * (1 + n)) + (2 * k * n * n + 5 * k * n + 3 * k) := by ring
  have e4 : n * (1 + k * (1 + n)) = n + n * (k * (1 + n)) := by ring
  omega

/-! ### Hopcroft -/

theorem splitAll_grow (x : List Nat) : ∀ (ys W : List (List Nat)), ys.length ≤ (splitAll x ys W).1.length
  | [], W => by simp [splitAll]
  | y :: ys, W => by
    rw [splitAll]
    dsimp only
    split
    · have := splitAll_grow x ys (splitW W y (y.filter (· ∈ x)) (y.filter (· ∉ x)))
      simp only [List.length_cons]; omega
    · have := splitAll_grow x ys W
      simp only [List.length_cons]; omega

theorem splitAllCost_le {x : List Nat} {n : Nat} : ∀ (ys W : List (List Nat)), (∀ y ∈ ys, y.length ≤ n) →
    W.length + (splitAll x ys W).1.length ≤ n + ys.length →
    splitAllCost x ys W ≤ ys.length + 2 * ys.flatten.length + ((splitAll x ys W).1.length - ys.length) * (n * (1 + n) + n)
  | [], W, _, _ => by simp [splitAllCost]
  | y :: ys, W, hy, h => by
    have hyn := hy y (by simp)
    rw [splitAll] at h ⊢
    rw [splitAllCost]
    dsimp only at h ⊢
    split at h
    · rename_i hc
      rw [if_pos hc]
      rw [if_pos hc]
      have hg := splitAll_grow x ys (splitW W y (y.filter (· ∈ x)) (y.filter (· ∉ x)))
      have hw := (splitW_spec W y (y.filter (· ∈ x)) (y.filter (· ∉ x))).1
      simp only [List.length_cons] at h
      have ih := splitAllCost_le (x := x) (n := n) ys (splitW W y (y.filter (· ∈ x)) (y.filter (· ∉ x))) (fun z hz => hy z (by simp [hz]))
        (by omega)
      have hW : W.length ≤ n := by omega
      have hs : splitWCost W y ≤ n * (1 + n) + n := by
        rw [splitWCost]
        have := Nat.mul_le_mul hW (show 1 + y.length ≤ 1 + n by omega)
        omega
      simp only [List.length_cons, List.flatten_cons, List.length_append]
      have e : (splitAll x ys (splitW W y (y.filter (· ∈ x)) (y.filter (· ∉ x)))).1.length + 1 + 1 - (ys.length + 1) =
        (splitAll x ys (splitW W y (y.filter (· ∈ x)) (y.filter (· ∉ x)))).1.length - ys.length + 1 := by omega
      rw [e, Nat.add_mul _ 1 (n * (1 + n) + n), Nat.one_mul]
      omega
    · rename_i hc
      rw [if_neg hc]
      rw [if_neg hc]
      simp only [List.length_cons] at h
      have ih := splitAllCost_le (x := x) (n := n) ys W (fun z hz => hy z (by simp [hz])) (by omega)
      simp only [List.length_cons, List.flatten_cons, List.length_append]
      have e : (splitAll x ys W).1.length + 1 - (ys.length + 1) = (splitAll x ys W).1.length - ys.length := by omega
      rw [e]
      omega

theorem hinv_block_le {d : Dfa} {P W : List (List Nat)} {ex} (h : HInv d P W ex) : ∀ y ∈ P, y.length ≤ d.states.length := by
  intro y hy
  have h1 := h.part.length_eq
  rw [List.length_range] at h1
  rw [← h1]
  exact (List.sublist_flatten_of_mem hy).length_le

theorem hopcroftSymbolsCost_le {d : Dfa} (hd : d.WF) {a : List Nat} (ha : d.Sat a) (cs : List Nat) (hn : cs.Nodup)
    (hcs : ∀ c ∈ cs, c < d.alphabet.length) :
    ∀ (P W : List (List Nat)), HInv d P W (fun c => if c ∈ cs then [a] else []) → W.length ≤ P.length →
      P.length ≤ (hopcroftSymbols d a cs (P, W)).1.length ∧
      hopcroftSymbolsCost d a cs (P, W) ≤ cs.length * (1 + 4 * d.states.length) +
        ((hopcroftSymbols d a cs (P, W)).1.length - P.length) * (d.states.length * (1 + d.states.length) + d.states.length) := by
  induction cs with
  | nil => intro P W _ _; simp [hopcroftSymbols, hopcroftSymbolsCost]
  | cons c cs ih =>
    intro P W h hWP
    obtain ⟨hc, hn'⟩ := List.nodup_cons.1 hn
    obtain ⟨h1, h2⟩ := hopcroft_column hd ha (hcs c (by simp)) h (ex' := fun c' => if c' ∈ cs then [a] else [])
      (fun c' hc' => by simp [hc']) (by simp) (by simp [hc])
    have hg := splitAll_grow (d.preImage a c) P W
    have hle := h1.length_le
    obtain ⟨i1, i2⟩ := ih hn' (fun c' hc' => hcs c' (by simp [hc'])) _ _ h1 (by omega)
    have hc1 := splitAllCost_le (x := d.preImage a c) (n := d.states.length) P W (hinv_block_le h) (by omega)
    have hfl : P.flatten.length = d.states.length := by rw [h.part.length_eq, List.length_range]
    have hpl := h.length_le
    rw [hopcroftSymbolsCost, hopcroftSymbols]
    dsimp only
    have hre : (hopcroftSymbols d a cs (splitAll (d.preImage a c) P W)).1.length =
        (hopcroftSymbols d a cs ((splitAll (d.preImage a c) P W).1, (splitAll (d.preImage a c) P W).2)).1.length := rfl
    refine ⟨by omega, ?_⟩
    rw [hfl] at hc1
    have e : (hopcroftSymbols d a cs (splitAll (d.preImage a c) P W)).1.length - P.length =
      ((hopcroftSymbols d a cs (splitAll (d.preImage a c) P W)).1.length - (splitAll (d.preImage a c) P W).1.length) +
      ((splitAll (d.preImage a c) P W).1.length - P.length) := by omega
    rw [e, Nat.add_mul, List.length_cons, Nat.succ_mul]
    have i2' : hopcroftSymbolsCost d a cs (splitAll (d.preImage a c) P W) ≤ cs.length * (1 + 4 * d.states.length) +
        ((hopcroftSymbols d a cs (splitAll (d.preImage a c) P W)).1.length - (splitAll (d.preImage a c) P W).1.length) *
          (d.states.length * (1 + d.states.length) + d.states.length) := i2
    omega

theorem hopcroftCost_le {d : Dfa} (hd : d.WF) : ∀ (k : Nat) (P W : List (List Nat)),
    HInv d P W (fun _ => []) → W.length ≤ P.length →
    hopcroftCost d k P W ≤ k * (1 + d.alphabet.length * (1 + 4 * d.states.length)) +
      (d.states.length - P.length) * (d.states.length * (1 + d.states.length) + d.states.length) := by
  intro k
  induction k with
  | zero => intro P W _ _; simp [hopcroftCost]
  | succ k ih =>
    intro P W h hWP
    rw [hopcroftCost, Nat.succ_mul]
    rcases List.eq_nil_or_concat W with rfl | ⟨init, a, rfl⟩
    · simp only [List.getLast?_nil]; omega
    · simp only [List.concat_eq_append] at h hWP ⊢
      simp only [List.getLast?_append, List.getLast?_singleton, Option.some_or, List.dropLast_concat]
      have h' : HInv d P init (fun c => if c ∈ List.range d.alphabet.length then [a] else []) := by
        refine ⟨h.part, h.ne, h.sorted, h.sat, fun B hB => h.satW B (by simp [hB]), h.acc, ?_⟩
        intro c hc p hp q hq hs hS
        apply h.stable c hc p hp q hq hs
        intro S hSm
        apply hS
        simp only [List.mem_range, hc, if_true]
        simpa using hSm
      simp only [List.length_append, List.length_singleton] at hWP
      obtain ⟨h1, h2⟩ := hopcroftSymbols_spec hd (h.satW a (by simp)) (List.range d.alphabet.length) List.nodup_range
        (by simp) P init h'
      obtain ⟨g1, g2⟩ := hopcroftSymbolsCost_le hd (h.satW a (by simp)) (List.range d.alphabet.length) List.nodup_range
        (by simp) P init h' (by omega)
      have i1 := ih _ _ h1 (by omega)
      have hle := h1.length_le
      rw [List.length_range] at g2
      have e : d.states.length - P.length = (d.states.length - (hopcroftSymbols d a (List.range d.alphabet.length) (P, init)).1.length) +
        ((hopcroftSymbols d a (List.range d.alphabet.length) (P, init)).1.length - P.length) := by omega
      rw [e, Nat.add_mul (d.states.length - _)]
      omega

theorem hinv_start {d : Dfa} {F N : List Nat}
    (hF : (List.range d.states.length).filter (fun i => (d.state i).accepting) = F)
    (hN : (List.range d.states.length).filter (fun i => !(d.state i).accepting) = N) (hFe : F ≠ []) (hNe : N ≠ []) :
    HInv d [F, N] [F, N] (fun _ => []) := by
  have mF : ∀ q, q ∈ F ↔ q < d.states.length ∧ (d.state q).accepting = true := by intro q; rw [← hF]; simp
  have mN : ∀ q, q ∈ N ↔ q < d.states.length ∧ (d.state q).accepting = false := by intro q; rw [← hN]; simp
  have hperm : (F ++ N).Perm (List.range d.states.length) := by
    rw [← hF, ← hN]
    exact List.filter_append_perm (fun i => (d.state i).accepting) (List.range d.states.length)
  have sF : F.Pairwise (· < ·) := by rw [← hF]; exact sorted_filter_range _ _
  have sN : N.Pairwise (· < ·) := by rw [← hN]; exact sorted_filter_range _ _
  have satF : d.Sat F := by
    intro p hp q hq hi
    rw [mF] at hp ⊢
    exact ⟨hq, by rw [← hi.acc]; exact hp.2⟩
  have satN : d.Sat N := by
    intro p hp q hq hi
    rw [mN] at hp ⊢
    exact ⟨hq, by rw [← hi.acc]; exact hp.2⟩
  refine ⟨by simpa using hperm, ?_, ?_, ?_, ?_, ?_, ?_⟩
  · intro B hB; simp only [List.mem_cons, List.not_mem_nil, or_false] at hB
    rcases hB with rfl | rfl <;> assumption
  · intro B hB; simp only [List.mem_cons, List.not_mem_nil, or_false] at hB
    rcases hB with rfl | rfl <;> assumption
  · intro B hB; simp only [List.mem_cons, List.not_mem_nil, or_false] at hB
    rcases hB with rfl | rfl <;> assumption
  · intro B hB; simp only [List.mem_cons, List.not_mem_nil, or_false] at hB
    rcases hB with rfl | rfl <;> assumption
  · intro p hp q hq hs
    have := hs F (by simp)
    rw [mF, mF] at this
    rw [Bool.eq_iff_iff]
    exact ⟨fun h => (this.1 ⟨hp, h⟩).2, fun h => (this.2 ⟨hq, h⟩).2⟩
  · intro c hc p hp q hq _ hS B hB
    exact hS B (by simpa using hB)

theorem classesCost_le {d : Dfa} (hd : d.WF) :
    d.classesCost ≤ 2 * (d.states.length + 1) ^ 3 + 8 * d.alphabet.length * (d.states.length + 1) ^ 2 := by
  have key : d.classesCost ≤ 1 + d.states.length + (d.states.length + ((2 * d.states.length + 1) *
      (1 + d.alphabet.length * (1 + 4 * d.states.length)) + d.states.length * (d.states.length * (1 + d.states.length) + d.states.length))) := by
    rw [classesCost]
    split
    · omega
    · rename_i hF
      split
      · omega
      · rename_i hN
        have h := hopcroftCost_le hd (2 * d.states.length + 1) _ _ (hinv_start rfl rfl hF hN) (by simp)
        have h2 : (d.states.length - (0 + 1 + 1)) * (d.states.length * (1 + d.states.length) + d.states.length) ≤
          d.states.length * (d.states.length * (1 + d.states.length) + d.states.length) := Nat.mul_le_mul_right _ (by omega)
        simp only [List.length_cons, List.length_nil] at h
        omega
  refine key.trans ?_
  generalize d.states.length = n
  generalize d.alphabet.length = k
  nlinarith [Nat.zero_le n, Nat.zero_le k, Nat.zero_le (k * n), Nat.zero_le (n * n), Nat.zero_le (n * n * n), Nat.zero_le (k * n * n)]

theorem classPairs_length {ord : List Nat → List Nat} (hord : ∀ l, (ord l).Perm l) (c : List Nat) : (classPairs ord c).length ≤ c.length := by
  rw [classPairs, ← (hord c).length_eq]
  split <;> rename_i h <;> simp [h]

theorem flatMap_classPairs_length {ord : List Nat → List Nat} (hord : ∀ l, (ord l).Perm l) (P : List (List Nat)) :
    (P.flatMap (classPairs ord)).length ≤ P.flatten.length := by
  induction P with
  | nil => simp
  | cons c P ih =>
    have := classPairs_length hord c
    simp only [List.flatMap_cons, List.flatten_cons, List.length_append]
    omega

theorem sum_block (P : List (List Nat)) : (P.map (fun c => 1 + c.length)).sum = P.length + P.flatten.length := by
  induction P with
  | nil => simp
  | cons c P ih =>
    simp only [List.map_cons, List.sum_cons, List.length_cons, List.flatten_cons, List.length_append, ih]
    omega

theorem mergeCost_le {ord : List Nat → List Nat} (hord : ∀ l, (ord l).Perm l) {d : Dfa} (hd : d.WF) :
    d.mergeCost ord ≤ 2 * (d.states.length + 1) ^ 3 + 16 * (d.alphabet.length + 1) * (d.states.length + 1) ^ 2 := by
  obtain ⟨P, h1, h2⟩ := classes_spec hd
  have hfl : P.flatten.length = d.states.length := by rw [h2.part.length_eq, List.length_range]
  have hP := length_le_flatten h2.ne
  have hm := flatMap_classPairs_length hord P
  have hc := classesCost_le hd
  have hrm := remapCost_le hd 1
  have hr := removeCost_le hd (rm := (P.flatMap (classPairs ord)).map (·.1)) (by rw [List.length_map]; omega)
  rw [mergeCost, h1]
  dsimp only
  rw [sum_block]
  have : 1 + (2 * (d.states.length + 1) ^ 3 + 8 * d.alphabet.length * (d.states.length + 1) ^ 2) + (d.states.length + d.states.length +
    (1 + d.states.length * (1 + d.alphabet.length * 1)) + d.states.length + 3 * (d.alphabet.length + 1) * (d.states.length + 1) ^ 2) ≤
      2 * (d.states.length + 1) ^ 3 + 16 * (d.alphabet.length + 1) * (d.states.length + 1) ^ 2 := by
    generalize d.states.length = n
    generalize d.alphabet.length = k
    nlinarith [Nat.zero_le n, Nat.zero_le k, Nat.zero_le (k * n), Nat.zero_le (n * n), Nat.zero_le (k * n * n)]
  omega

theorem removeUnreachableCost_le {d : Dfa} (hd : d.WF) :
    d.removeUnreachableCost ≤ 8 * (d.alphabet.length + 1) * (d.states.length + 1) ^ 2 := by
  obtain ⟨r, h1, h2, h3⟩ := reachableStateIdx_spec hd
  have hu : d.unreachableStateIdx = some ((List.range d.states.length).filter (· ∉ r)) := by rw [unreachableStateIdx, h1]; rfl
  have hlen : ((List.range d.states.length).filter (· ∉ r)).length ≤ d.states.length :=
    (List.length_filter_le _ _).trans (by simp)
  have hc := reachableCost_le hd
  have hr := removeCost_le hd hlen
  rw [removeUnreachableCost, hu, unreachableCost]
  dsimp only
  have : 1 + (1 + (2 + d.states.length * (d.alphabet.length + 2)) + d.states.length) + (d.states.length +
      3 * (d.alphabet.length + 1) * (d.states.length + 1) ^ 2) ≤ 8 * (d.alphabet.length + 1) * (d.states.length + 1) ^ 2 := by
    generalize d.states.length = n
    generalize d.alphabet.length = k
    nlinarith [Nat.zero_le n, Nat.zero_le k, Nat.zero_le (k * n), Nat.zero_le (n * n), Nat.zero_le (k * n * n)]
  omega

theorem hopcroftCost_more {d : Dfa} (j : Nat) : ∀ (k : Nat) (P W : List (List Nat)), hopcroftLoop d k P W ≠ none →
    hopcroftCost d (k + j) P W = hopcroftCost d k P W
  | 0, _, _, h => by simp [hopcroftLoop] at h
  | k + 1, P, W, h => by
    rw [hopcroftLoop] at h
    rw [Nat.add_right_comm, hopcroftCost, hopcroftCost]
    cases hw : W.getLast? with
    | none => rfl
    | some a =>
      rw [hw] at h
      dsimp only at h ⊢
      rw [hopcroftCost_more j k _ _ h]

theorem alphabetEqual_length {a b : List Str} (h : alphabetEqual a b = true) : b.length = a.length := by
  rw [alphabetEqual] at h
  split at h
  · simp at h
  · omega

theorem alphabetEqualCost_le (a b : List Str) : alphabetEqualCost a b ≤ 1 + 4 * a.length := by
  rw [alphabetEqualCost]; split <;> omega

theorem pairWork_eq {d o : Dfa} (h : alphabetEqual d.alphabet o.alphabet = true) :
    pairWork d o = d.alphabet.length * (2 * d.alphabet.length + 5) := by
  rw [pairWork, evaluatorCost, evaluatorCost, alphabetEqual_length h]; ring

theorem equivalentCost_le (d o : Dfa) :
    d.equivalentCost o ≤ 6 * (d.alphabet.length + 1) ^ 2 * (d.states.length * o.states.length + 1) := by
  have h1 := alphabetEqualCost_le d.alphabet o.alphabet
  rw [equivalentCost]
  have hk : 0 < d.states.length * o.states.length + 1 := by omega
  cases h : alphabetEqual d.alphabet o.alphabet with
  | false =>
    simp only [Bool.not_false, if_true]
    generalize d.alphabet.length = k at *
    generalize d.states.length * o.states.length + 1 = N at *
    have : 6 * (k + 1) ^ 2 * 1 ≤ 6 * (k + 1) ^ 2 * N := Nat.mul_le_mul_left _ hk
    nlinarith
  | true =>
    simp only [Bool.not_true, Bool.false_eq_true, if_false]
    have h2 := exploreCost_le (key := pairKey) (succ := pairSucc d.alphabet) (ok := fun p => p.1.isAccepting == p.2.isAccepting)
      (test := fun _ => 1) (work := fun _ => pairWork d o) (B := 1 + pairWork d o) (fun _ => True) (fun _ _ _ _ => trivial)
      (fun _ _ => le_refl _) (pairFuel d o) [(DfaEval.new d, DfaEval.new o)] [(DfaEval.new d, DfaEval.new o)] (fun _ _ => trivial) (by simp)
    rw [pairWork_eq h, pairFuel] at h2
    rw [evaluatorCost, evaluatorCost, alphabetEqual_length h]
    rw [pairWork_eq h, pairFuel]
    have key : 1 + (1 + 4 * d.alphabet.length) + (1 + d.alphabet.length + (1 + d.alphabet.length) +
      (d.states.length * o.states.length + 1) * (1 + (1 + d.alphabet.length * (2 * d.alphabet.length + 5)))) ≤
      6 * (d.alphabet.length + 1) ^ 2 * (d.states.length * o.states.length + 1) := by
      generalize d.alphabet.length = k at *
      generalize d.states.length * o.states.length = N at *
      nlinarith [Nat.zero_le (N * k), Nat.zero_le (N * k * k), Nat.zero_le (k * k)]
    omega

theorem sum_const {α : Type} (l : List α) (c : Nat) : (l.map (fun _ => c)).sum = l.length * c := by
  induction l with
  | nil => simp
  | cons x l ih => simp only [List.map_cons, List.sum_cons, List.length_cons, Nat.add_mul, ih]; omega

theorem productCost_le {ord : List (Nat × Nat) → List (Nat × Nat)} (hord : ∀ l, (ord l).Perm l) {d o p : Dfa} (hd : d.WF) (ho : o.WF)
    {comb : DfaState → DfaState → Bool} (hp : product ord d o comb = some (some p)) :
    d.productCost o ≤ 6 * (d.alphabet.length + 1) ^ 2 * (p.states.length + 1) := by
  have h : alphabetEqual d.alphabet o.alphabet = true := by
    cases h : alphabetEqual d.alphabet o.alphabet with
    | true => rfl
    | false => rw [product, h] at hp; simp at hp
  have hs := (alphabetEqual_iff hd.alphabet_nodup ho.alphabet_nodup).1 h
  obtain ⟨out, seen, he, _, _, hg⟩ := product_eq_out hd ho hs
  obtain ⟨g, hg, _⟩ := hg comb _ rfl ord hord
  rw [hg, Option.some.injEq, Option.some.injEq] at hp
  have hlen : p.states.length = out.length := by rw [← hp]; simp [prodOf]
  rcases explore_pair hd ho hs (fun _ => true) with ⟨_, s, _, hs⟩ | ⟨out', seen', he', hE⟩
  · cases hs
  rw [he, Option.some.injEq, Option.some.injEq, Prod.mk.injEq] at he'
  obtain ⟨rfl, rfl⟩ := he'
  have hseen := hE.perm.length_eq
  have h2 := exploreCost_eq (test := fun _ => 1) (work := fun _ => pairWork d o) _ _ _ _ _ _ he
  simp only [List.map_nil, List.sum_nil, sum_const, Nat.add_zero] at h2
  have h1 := alphabetEqualCost_le d.alphabet o.alphabet
  rw [productCost, h]
  simp only [Bool.not_true, Bool.false_eq_true, if_false]
  rw [he]
  dsimp only
  rw [hseen, hlen]
  rw [pairWork_eq h] at h2 ⊢
  rw [evaluatorCost, evaluatorCost, alphabetEqual_length h]
  have key : 1 + (1 + 4 * d.alphabet.length) + (1 + d.alphabet.length + (1 + d.alphabet.length) +
      (1 + out.length * (1 + 1 + d.alphabet.length * (2 * d.alphabet.length + 5))) + (2 * out.length + out.length +
        out.length * (1 + d.alphabet.length))) ≤
      6 * (d.alphabet.length + 1) ^ 2 * (out.length + 1) := by
    generalize d.alphabet.length = k at *
    generalize out.length = N at *
    nlinarith [Nat.zero_le (N * k), Nat.zero_le (N * k * k), Nat.zero_le (k * k)]
  rw [h2]
  have fin : 1 + alphabetEqualCost d.alphabet o.alphabet + (1 + d.alphabet.length + (1 + d.alphabet.length) +
      (1 + out.length * (1 + 1 + d.alphabet.length * (2 * d.alphabet.length + 5))) + (2 * out.length + out.length +
        out.length * (1 + d.alphabet.length))) ≤ 6 * (d.alphabet.length + 1) ^ 2 * (out.length + 1) := by omega
  exact fin

theorem minimizeCost_le {ordU ord : List Nat → List Nat} (hU : ∀ l, (ordU l).Perm l) (hord : ∀ l, (ord l).Perm l) {d : Dfa} (hd : d.WF) :
    d.minimizeCost ordU ord ≤ 2 * (d.states.length + 1) ^ 3 + 25 * (d.alphabet.length + 1) * (d.states.length + 1) ^ 2 := by
  obtain ⟨kept, h1, h2, h3, h4⟩ := removeUnreachableStates_eq hU hd
  have hwf := quot_wf hd h3
  have hr := removeUnreachableCost_le hd
  have hm := mergeCost_le hord hwf
  have hlen : (quot d kept id).states.length ≤ d.states.length := by
    have : (quot d kept id).states.length = kept.length := by simp [quot]
    rw [this]
    exact nodup_length_le h3.nodup h3.lt
  have ha : (quot d kept id).alphabet = d.alphabet := rfl
  rw [ha] at hm
  have e1 : ((quot d kept id).states.length + 1) ^ 3 ≤ (d.states.length + 1) ^ 3 := Nat.pow_le_pow_left (by omega) 3
  have e2 : 16 * (d.alphabet.length + 1) * ((quot d kept id).states.length + 1) ^ 2 ≤ 16 * (d.alphabet.length + 1) * (d.states.length + 1) ^ 2 :=
    Nat.mul_le_mul_left _ (Nat.pow_le_pow_left (by omega) 2)
  have e3 : 1 ≤ (d.alphabet.length + 1) * (d.states.length + 1) ^ 2 := Nat.one_le_iff_ne_zero.2 (by positivity)
  rw [minimizeCost, h4]
  dsimp only
  have e4 : ∀ c, c * (d.alphabet.length + 1) * (d.states.length + 1) ^ 2 = c * ((d.alphabet.length + 1) * (d.states.length + 1) ^ 2) :=
    fun c => Nat.mul_assoc _ _ _
  rw [e4] at *
  omega

end Dfa
end Dandy
