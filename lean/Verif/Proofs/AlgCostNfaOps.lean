import Verif.Proofs.AlgCostNfa
import Verif.Proofs.NfaProduct
import Verif.Proofs.NfaUnion
import Verif.Proofs.NfaEps
/-! # The work of the algorithms on NFAs: helper lemmas for C93 (product, union, removal of states and of epsilon moves) -/

namespace Dandy

theorem nodup_sum_le {α : Type} {l K : List α} {f : α → Nat} (h1 : l.Nodup) (h2 : ∀ x ∈ l, x ∈ K) : (l.map f).sum ≤ (K.map f).sum := by
  obtain ⟨l', hp, hl⟩ := List.subperm_of_subset h1 h2
  have e1 : (l.map f).sum = (l'.map f).sum := ((hp.map f).sum_eq).symm
  have e2 : (l'.map f).sum ≤ (K.map f).sum := (hl.map f).sum_le_sum (by simp)
  omega

theorem sum_map_add {α : Type} {l : List α} {f g : α → Nat} : (l.map (fun x => f x + g x)).sum = (l.map f).sum + (l.map g).sum := by
  induction l with
  | nil => rfl
  | cons a l ih => simp only [List.map_cons, List.sum_cons, ih]; omega

theorem sum_map_mul {α : Type} {l : List α} {f : α → Nat} {c : Nat} : (l.map (fun x => c * f x)).sum = c * (l.map f).sum := by
  induction l with
  | nil => rfl
  | cons a l ih => simp only [List.map_cons, List.sum_cons, ih, Nat.mul_add]

theorem sum_product {α β : Type} {A : List α} {B : List β} {f : α → Nat} {g : β → Nat} :
    ((A ×ˢ B).map (fun p => f p.1 * g p.2)).sum = (A.map f).sum * (B.map g).sum := by
  induction A with
  | nil => simp
  | cons a A ih =>
    rw [List.product_cons, List.map_append, List.sum_append, ih, List.map_map]
    simp only [Function.comp_def, List.map_cons, List.sum_cons]
    rw [sum_map_mul, Nat.add_mul]

/-- The search by levels looks at every item at most once. -/
theorem bfsCost_sum {succ : Nat → Option (List Nat)} {work : Nat → Nat} {f : Nat → List Nat} {n : Nat}
    (hsucc : ∀ q < n, succ q = some (f q)) (hf : ∀ q < n, ∀ t ∈ f q, t < n) :
    ∀ (k : Nat) (all new : List Nat), all.Pairwise (· < ·) → (∀ x ∈ all, x < n) → (∀ x ∈ new, x ∈ all) → new.Nodup →
      bfsCost succ work k all new ≤ 1 + (new.map (fun q => 1 + (work q + (f q).length))).sum +
        (((List.range n).filter (· ∉ all)).map (fun q => 1 + (work q + (f q).length))).sum
  | 0, _, _, _, _, _, _ => by simp [bfsCost]
  | k + 1, all, new, h1, h2, h3, h4 => by
    rw [bfsCost]
    split
    · omega
    · rename_i hne
      have hm : new.mapM succ = some (new.map f) := by
        clear hne h4
        induction new with
        | nil => rfl
        | cons q new ih =>
          rw [List.mapM_cons, hsucc q (h2 q (h3 q (by simp))), ih (fun x hx => h3 x (by simp [hx]))]
          rfl
      rw [hm]
      dsimp only
      obtain ⟨a1, a2, a3, a4⟩ := addNew_spec (new.map f).flatten all [] h1
      have hlt : ∀ x ∈ (addNew (new.map f).flatten (all, [])).1, x < n := by
        intro x hx
        rcases (a2 x).1 hx with hx | hx
        · exact h2 x hx
        · rw [List.mem_flatten] at hx
          obtain ⟨l, hl, hx⟩ := hx
          obtain ⟨q, hq, rfl⟩ := List.mem_map.1 hl
          exact hf q (h2 q (h3 q hq)) x hx
      have hnd : (addNew (new.map f).flatten (all, [])).2.Nodup := by
        have hl : (addNew (new.map f).flatten (all, [])).2.dedup.length = (addNew (new.map f).flatten (all, [])).2.length := by
          have hle : (addNew (new.map f).flatten (all, [])).2.dedup.length ≤ (addNew (new.map f).flatten (all, [])).2.length :=
            (List.dedup_sublist _).length_le
          have hp : (addNew (new.map f).flatten (all, [])).1.Perm (all ++ (addNew (new.map f).flatten (all, [])).2.dedup) := by
            rw [List.perm_ext_iff_of_nodup (sorted_nodup a1)]
            · intro x
              rw [a2, List.mem_append, List.mem_dedup, a3]
              simp only [List.not_mem_nil, false_or]
              by_cases hx : x ∈ all <;> simp [hx]
            · rw [List.nodup_append]
              refine ⟨sorted_nodup h1, List.nodup_dedup _, ?_⟩
              rintro x hx y hy rfl
              rw [List.mem_dedup, a3] at hy
              rcases hy with hy | hy
              · simp at hy
              · exact hy.2 hx
          have := hp.length_eq
          rw [List.length_append] at this
          simp only [List.length_nil, Nat.add_zero] at a4
          omega
        exact List.dedup_eq_self.1 ((List.dedup_sublist _).eq_of_length hl)
      have ih := bfsCost_sum (work := work) hsucc hf k (addNew (new.map f).flatten (all, [])).1 (addNew (new.map f).flatten (all, [])).2 a1 hlt
        (fun x hx => by
          rcases (a3 x).1 hx with hx | hx
          · simp at hx
          · exact (a2 x).2 (.inr hx.1)) hnd
      have hsplit : ((addNew (new.map f).flatten (all, [])).2.map (fun q => 1 + (work q + (f q).length))).sum +
          (((List.range n).filter (· ∉ (addNew (new.map f).flatten (all, [])).1)).map (fun q => 1 + (work q + (f q).length))).sum ≤
          (((List.range n).filter (· ∉ all)).map (fun q => 1 + (work q + (f q).length))).sum := by
        rw [← List.sum_append, ← List.map_append]
        refine nodup_sum_le ?_ ?_
        · rw [List.nodup_append]
          refine ⟨hnd, List.nodup_range.filter _, ?_⟩
          rintro x hx y hy rfl
          rw [List.mem_filter] at hy
          have : x ∈ (addNew (new.map f).flatten (all, [])).1 := by
            rcases (a3 x).1 hx with hx | hx
            · simp at hx
            · exact (a2 x).2 (.inr hx.1)
          simp [this] at hy
        · intro x hx
          rw [List.mem_append] at hx
          rw [List.mem_filter, List.mem_range]
          rcases hx with hx | hx
          · rcases (a3 x).1 hx with hx' | hx'
            · simp at hx'
            · exact ⟨hlt x ((a2 x).2 (.inr hx'.1)), by simpa using hx'.2⟩
          · rw [List.mem_filter, List.mem_range] at hx
            refine ⟨hx.1, ?_⟩
            have h5 : x ∉ (addNew (new.map f).flatten (all, [])).1 := by simpa using hx.2
            simpa using fun h => h5 ((a2 x).2 (.inl h))
      have hsum : (new.map (fun q => 1 + (work q + (f q).length))).sum = new.length + ((new.map work).sum + (new.map f).flatten.length) := by
        rw [sum_map_add, sum_map_add, Dfa.sum_const, List.length_flatten, List.map_map]
        simp only [Function.comp_def]
        omega
      have hpos : 1 ≤ new.length := List.length_pos_iff.2 hne
      have fin : 1 + ((new.map work).sum + ((new.map f).flatten.length +
          bfsCost succ work k (addNew (new.map f).flatten (all, [])).1 (addNew (new.map f).flatten (all, [])).2)) ≤
          1 + (new.map (fun q => 1 + (work q + (f q).length))).sum +
          (((List.range n).filter (· ∉ all)).map (fun q => 1 + (work q + (f q).length))).sum := by omega
      exact fin

theorem bfsCost_all {succ : Nat → Option (List Nat)} {work : Nat → Nat} {f : Nat → List Nat} {n s : Nat}
    (hsucc : ∀ q < n, succ q = some (f q)) (hf : ∀ q < n, ∀ t ∈ f q, t < n) (hs : s < n) (k : Nat) :
    bfsCost succ work k [s] [s] ≤ 1 + ((List.range n).map (fun q => 1 + (work q + (f q).length))).sum := by
  have h := bfsCost_sum (work := work) hsucc hf k [s] [s] (by simp) (by simpa using hs) (by simp) (by simp)
  have h2 : ([s].map (fun q => 1 + (work q + (f q).length))).sum + (((List.range n).filter (· ∉ [s])).map (fun q => 1 + (work q + (f q).length))).sum ≤
      ((List.range n).map (fun q => 1 + (work q + (f q).length))).sum := by
    rw [← List.sum_append, ← List.map_append]
    refine nodup_sum_le ?_ ?_
    · rw [List.nodup_append]
      refine ⟨by simp, List.nodup_range.filter _, ?_⟩
      rintro x hx y hy rfl
      rw [List.mem_filter] at hy
      simp [hx] at hy
    · intro x hx
      rw [List.mem_append] at hx
      rcases hx with hx | hx
      · rw [List.mem_singleton] at hx; subst hx; exact List.mem_range.2 hs
      · exact (List.mem_filter.1 hx).1
  omega

/-- All items found are handled. -/
theorem explore_length {σ κ : Type} [DecidableEq κ] {key : σ → κ} {succ : σ → List σ} {ok : σ → Bool} :
    ∀ (k : Nat) (stack seen out : List σ) (o r : List σ), explore key succ ok k stack seen out = some (some (o, r)) →
      (seen.map key).Nodup → seen.length = out.length + stack.length → r.length = o.length
  | 0, _, _, _, _, _, h, _, _ => by simp [explore] at h
  | k + 1, [], seen, out, o, r, h, _, hl => by
    simp only [explore, Option.some.injEq, Prod.mk.injEq] at h
    rw [← h.1, ← h.2, hl]; rfl
  | k + 1, s :: stack, seen, out, o, r, h, hn, hl => by
    rw [explore] at h
    split at h
    · obtain ⟨new, he, h1, h2, _⟩ := pushNew_spec (succ s) stack seen hn
      dsimp only at h
      rw [he] at h
      refine explore_length k _ _ _ o r h h2 ?_
      simp only [List.length_append, List.length_reverse, List.length_cons, List.length_nil] at hl ⊢
      omega
    · simp at h

namespace Nfa

/-- The numbers used in the bounds. -/
structure Nums (n : Nfa) : Prop where
  pos : 1 ≤ n.states.length
  states : n.states.length ≤ n.tableSize
  alph : n.alphabet.length + 1 ≤ n.tableSize
  cells : n.states.length * (n.alphabet.length + 1) ≤ n.tableSize
  prod : n.tableSize ≤ n.states.length * n.tableSize
  sq : n.states.length * n.states.length ≤ n.states.length * n.tableSize

theorem row_sum_length {l : List (List Nat)} : (l.map (fun ts => 1 + ts.length)).sum = l.length + l.flatten.length := by
  rw [sum_map_add, Dfa.sum_const, List.length_flatten]; omega

theorem nums {n : Nfa} (hn : n.WF) : n.Nums := by
  have h1 : 1 ≤ n.states.length := by have := hn.init_lt; omega
  have h2 := n.states_le_table
  refine ⟨h1, h2, alphabet_lt_table hn, ?_, Nat.le_mul_of_pos_left _ h1, Nat.mul_le_mul_left _ h2⟩
  rw [tableSize, ← Dfa.sum_const n.states]
  refine sum_mono (fun s hs => ?_)
  have := hn.row_len s hs
  rw [row_sum_length]
  omega

theorem closureCost_le {n : Nfa} (hn : n.WF) (q : Nat) : n.closureCost q ≤ 4 * n.tableSize := by
  obtain ⟨h1, h2, h3, _, _, _⟩ := nums hn
  rw [closureCost]
  split
  · omega
  · rename_i hq
    have h := bfsCost_all (work := fun _ => 1) (f := fun q => (n.state q).epsilonTransitions) (succ := fun q => some (n.state q).epsilonTransitions)
      (fun _ _ => rfl) (fun q _ t ht => ep_lt hn ht) (show q < n.states.length by omega) (n.states.length + 1)
    rw [sum_map_add, Dfa.sum_const, List.length_range] at h
    have h5 := sum_le_table (n := n) (S := List.range n.states.length) List.nodup_range (fun x hx => List.mem_range.1 hx) n.eps_le_wt
    omega

theorem closure_length {n : Nfa} (hn : n.WF) {q : Nat} {c : List Nat} (hc : n.closure q = some c) (hq : q < n.states.length) :
    c.length ≤ n.states.length ∧ ∀ x ∈ c, x < n.states.length := by
  obtain ⟨r, h1, h2, h3⟩ := closure_spec hn hq
  rw [h1, Option.some.injEq] at hc
  subst hc
  have : ∀ x ∈ r, x < n.states.length := fun x hx => EpsR.lt hn hq ((h3 x).1 hx)
  exact ⟨nodup_length_le (sorted_nodup h2) this, this⟩

theorem reachableCost_le {n : Nfa} (hn : n.WF) : n.reachableCost ≤ 10 * (n.states.length * n.tableSize) := by
  obtain ⟨h1, h2, h3, h4, h5, h6⟩ := nums hn
  have h := bfsCost_all (work := fun q => 1 + (n.state q).transitions.length + n.closureCost q)
    (succ := fun q => (n.closure q).map (fun c => (n.state q).transitions.flatten ++ c))
    (f := fun q => (n.state q).transitions.flatten ++ (n.closure q).getD []) (n := n.states.length)
    (fun q hq => by
      obtain ⟨r, h1, _⟩ := closure_spec hn hq
      rw [h1]; rfl)
    (fun q hq t ht => by
      obtain ⟨r, h1, _⟩ := closure_spec hn hq
      rw [List.mem_append, mem_flatten_tr, h1] at ht
      rcases ht with ⟨i, h⟩ | h
      · exact tr_lt hn h
      · exact (closure_length hn h1 hq).2 t h) hn.init_lt (n.states.length + 1)
  have hb : ((List.range n.states.length).map (fun q => 1 + (1 + (n.state q).transitions.length + n.closureCost q +
      ((n.state q).transitions.flatten ++ (n.closure q).getD []).length))).sum ≤
      ((List.range n.states.length).map (fun q => n.wt q + (1 + 4 * n.tableSize + n.states.length))).sum := by
    refine sum_mono (fun q hq => ?_)
    rw [List.mem_range] at hq
    obtain ⟨r, e1, _⟩ := closure_spec hn hq
    have e2 := (closure_length hn e1 hq).1
    have e3 := closureCost_le hn q
    have e4 := row_sum_length (l := (n.state q).transitions)
    rw [e1, List.length_append, wt]
    simp only [Option.getD_some]
    omega
  rw [sum_map_add (f := n.wt), range_wt, Dfa.sum_const, List.length_range] at hb
  have e : n.states.length * (1 + 4 * n.tableSize + n.states.length) =
      n.states.length + 4 * (n.states.length * n.tableSize) + n.states.length * n.states.length := by ring
  rw [reachableCost]
  omega

theorem unreachable_length {n : Nfa} (hn : n.WF) : ∃ u, n.unreachableStateIdx = some u ∧ u.length ≤ n.states.length := by
  obtain ⟨r, h1, h2, h3⟩ := unreachableStateIdx_spec hn
  exact ⟨r, h1, nodup_length_le (sorted_nodup h2) (fun x hx => ((h3 x).1 hx).1)⟩

theorem remapCost_le {n : Nfa} {c : Nat} (hc : 1 ≤ c) : n.remapCost c ≤ 1 + c * n.tableSize := by
  rw [remapCost, tableSize, ← sum_map_mul]
  refine Nat.add_le_add_left (sum_mono (fun s _ => ?_)) _
  have h : (s.transitions.map (fun ts => 1 + ts.length * c)).sum ≤ c * (s.transitions.map (fun ts => 1 + ts.length)).sum := by
    rw [← sum_map_mul]
    refine sum_mono (fun ts _ => ?_)
    rw [Nat.mul_add, Nat.mul_comm c ts.length]
    omega
  rw [Nat.mul_add, Nat.mul_add, Nat.mul_comm c s.epsilonTransitions.length]
  omega

theorem removeCost_le {n : Nfa} (hn : n.WF) {rm : List Nat} (hr : rm.length ≤ n.states.length) :
    n.removeCost rm ≤ 16 * (n.states.length * n.tableSize) := by
  obtain ⟨h1, h2, h3, h4, h5, h6⟩ := nums hn
  have e1 := log2_le rm.length
  have e2 := log2_le n.states.length
  have e3 := n.remapCost_le (c := searchCost n.states.length) (by rw [searchCost]; omega)
  have e4 : rm.length * (1 + Nat.log2 rm.length) ≤ n.states.length * (1 + n.states.length) := Nat.mul_le_mul hr (by omega)
  have e5 : rm.length * (1 + n.states.length) ≤ n.states.length * (1 + n.states.length) := Nat.mul_le_mul_right _ hr
  have e6 : searchCost n.states.length * n.tableSize ≤ (1 + n.states.length) * n.tableSize := Nat.mul_le_mul_right _ (by rw [searchCost]; omega)
  have e7 : (1 + n.states.length) * n.tableSize = n.tableSize + n.states.length * n.tableSize := by ring
  have e8 : n.states.length * (1 + n.states.length) = n.states.length + n.states.length * n.states.length := by ring
  rw [removeCost, sortCost]
  have : searchCost rm.length ≤ 1 + n.states.length := by rw [searchCost]; omega
  omega

theorem removeUnreachableCost_le {n : Nfa} (hn : n.WF) : n.removeUnreachableCost ≤ 30 * (n.states.length * n.tableSize) := by
  obtain ⟨h1, h2, h3, h4, h5, h6⟩ := nums hn
  obtain ⟨u, hu, hl⟩ := unreachable_length hn
  have e1 := reachableCost_le hn
  have e2 := removeCost_le hn hl
  rw [removeUnreachableCost, hu, unreachableCost]
  dsimp only
  omega

/-! ### Products -/

/-- The weight of an outcome. -/
def ow (n : Nfa) : Option Nat → Nat
  | none => n.alphabet.length + 1
  | some q => n.wt q

/-- The number of targets of an outcome. -/
def orow (n : Nfa) (i : Nat) : Option Nat → Nat
  | none => 0
  | some q => ((n.state q).transitions.getD i []).length

theorem pairTargets_length (n o : Nfa) (i j : Nat) (p : OPair) : (pairTargets n o i j p).length ≤ (1 + n.orow i p.1) * (1 + o.orow j p.2) := by
  obtain ⟨a, b⟩ := p
  have hl : ∀ (m : Nfa) (s : Option Nat) (c : Nat) (l : List Nat), m.liveTargets s c = some l → l.length = m.orow c s := by
    intro m s c l h
    cases s with
    | none => simp [liveTargets] at h
    | some q =>
      rw [liveTargets] at h
      split at h
      · simp at h
      · rw [Option.some.injEq] at h; rw [orow, h]
  rw [pairTargets]
  cases h1 : n.liveTargets a i with
  | none =>
    cases h2 : o.liveTargets b j with
    | none => simp
    | some l2 =>
      have e2 := hl _ _ _ _ h2
      dsimp only
      rw [List.length_map, e2]
      nlinarith [Nat.zero_le (n.orow i a * (1 + o.orow j b))]
  | some l1 =>
    have e1 := hl _ _ _ _ h1
    cases h2 : o.liveTargets b j with
    | none =>
      dsimp only
      rw [List.length_map, e1]
      nlinarith [Nat.zero_le ((1 + n.orow i a) * o.orow j b)]
    | some l2 =>
      have e2 := hl _ _ _ _ h2
      dsimp only
      rw [List.length_flatMap]
      simp only [List.length_map, Dfa.sum_const]
      rw [e1, e2]
      nlinarith

theorem orow_sum {n : Nfa} (hn : n.WF) {a : Option Nat} (ha : ∀ q, a = some q → q < n.states.length) :
    ((List.range n.alphabet.length).map (fun i => 1 + n.orow i a)).sum + 1 ≤ n.ow a := by
  cases a with
  | none => simp [orow, ow]
  | some q =>
    have hl := hn.row_len _ (state_mem (ha q rfl))
    have : (List.range n.alphabet.length).map (fun i => 1 + n.orow i (some q)) = (n.state q).transitions.map (fun ts => 1 + ts.length) := by
      apply List.ext_getElem
      · simp [hl]
      · intro i h1 h2
        simp only [List.length_map, List.length_range] at h1
        simp [orow, hl, h1]
    rw [this, ow, wt]
    omega

theorem orow_le {n : Nfa} (a : Option Nat) (i : Nat) : 1 + n.orow i a ≤ n.ow a := by
  cases a with
  | none => simp [orow, ow]
  | some q => exact n.row_le_wt q i

theorem oeps_le {n o : Nfa} (p : OPair) : (pairEps n o p).length ≤ n.ow p.1 + o.ow p.2 := by
  obtain ⟨a, b⟩ := p
  rw [pairEps, List.length_append]
  refine Nat.add_le_add ?_ ?_
  · cases a with
    | none => simp
    | some q =>
      have := n.eps_le_wt q
      simp only [List.length_map, ow]; omega
  · cases b with
    | none => simp
    | some q =>
      have := o.eps_le_wt q
      simp only [List.length_map, ow]; omega

theorem ow_pos {n : Nfa} (a : Option Nat) : 1 ≤ n.ow a := by
  cases a with
  | none => simp [ow]
  | some q => rw [ow, wt]; omega

theorem pairWork_le {n o : Nfa} (hn : n.WF) {tr : List Nat} {p : OPair} (hp : PBound n o p) : pairWork n o tr p ≤ 4 * (n.ow p.1 * o.ow p.2) := by
  have h1 := orow_sum hn hp.1
  have h2 : (pairRow n o tr p).flatten.length ≤ ((List.range n.alphabet.length).map (fun i => o.ow p.2 * (1 + n.orow i p.1))).sum := by
    rw [List.length_flatten, pairRow, List.map_map]
    refine sum_mono (fun i _ => ?_)
    refine (pairTargets_length n o i _ p).trans ?_
    rw [Nat.mul_comm]
    exact Nat.mul_le_mul_right _ (orow_le _ _)
  rw [sum_map_mul] at h2
  have h3 := oeps_le (n := n) (o := o) p
  have h4 := n.ow_pos p.1
  have h5 := o.ow_pos p.2
  have h6 : n.alphabet.length ≤ ((List.range n.alphabet.length).map (fun i => 1 + n.orow i p.1)).sum := by
    rw [sum_map_add, Dfa.sum_const, List.length_range]; omega
  have h7 : o.ow p.2 * ((List.range n.alphabet.length).map (fun i => 1 + n.orow i p.1)).sum ≤ o.ow p.2 * n.ow p.1 := Nat.mul_le_mul_left _ (by omega)
  have h8 : o.ow p.2 * n.ow p.1 = n.ow p.1 * o.ow p.2 := Nat.mul_comm _ _
  have h9 : n.ow p.1 ≤ n.ow p.1 * o.ow p.2 := Nat.le_mul_of_pos_right _ h5
  have h10 : o.ow p.2 ≤ n.ow p.1 * o.ow p.2 := Nat.le_mul_of_pos_left _ h4
  rw [pairWork]
  omega

theorem ow_sum (n : Nfa) (hn : n.WF) : ((none :: (List.range n.states.length).map some).map n.ow).sum ≤ 2 * n.tableSize := by
  have h := n.range_wt
  have h2 := (nums hn).alph
  rw [List.map_cons, List.sum_cons, List.map_map]
  have : (List.range n.states.length).map (n.ow ∘ some) = (List.range n.states.length).map n.wt := rfl
  rw [this, h, ow]
  omega

theorem productCost_le {n o : Nfa} (hn : n.WF) (ho : o.WF) : n.productCost o ≤ 60 * (n.tableSize * o.tableSize) := by
  obtain ⟨h1, h2, h3, _, _, _⟩ := nums hn
  obtain ⟨g1, g2, g3, _, _, _⟩ := nums ho
  have ha := Dfa.alphabetEqualCost_le n.alphabet o.alphabet
  have k1 : n.tableSize ≤ n.tableSize * o.tableSize := Nat.le_mul_of_pos_right _ (by omega)
  have k2 : o.tableSize ≤ n.tableSize * o.tableSize := Nat.le_mul_of_pos_left _ (by omega)
  rw [productCost]
  split
  · omega
  · rename_i hs
    have hs' : SameElems n.alphabet o.alphabet := (alphabetEqual_iff hn.alphabet_nodup ho.alphabet_nodup).1 (by simpa using hs)
    rw [alphabetTranslation_eq (fun e he => (hs' e).1 he)]
    obtain ⟨out, seen, he, hK, _⟩ := product_eq_out hn ho hs'
    have hbound : ∀ p ∈ out, PBound n o p := by
      intro p hp
      have := (hK.mem_iff p).1 hp
      induction this with
      | refl => exact ⟨fun q hq => by cases hq; exact hn.init_lt, fun q hq => by cases hq; exact ho.init_lt⟩
      | tail h1 h2 ih => exact psucc_bound hn ho hs' (ih ((hK.mem_iff _).2 h1)) h2
    have hsub : ∀ p ∈ out, p ∈ (none :: (List.range n.states.length).map some) ×ˢ (none :: (List.range o.states.length).map some) := by
      rintro ⟨a, b⟩ hp
      obtain ⟨b1, b2⟩ := hbound _ hp
      refine List.mem_product.2 ⟨?_, ?_⟩
      · cases a with
        | none => simp
        | some q => simpa using b1 q rfl
      · cases b with
        | none => simp
        | some q => simpa using b2 q rfl
    have hsum : (out.map (fun p => n.ow p.1 * o.ow p.2)).sum ≤ 4 * (n.tableSize * o.tableSize) := by
      refine (nodup_sum_le hK.nodup hsub).trans ?_
      rw [sum_product]
      refine (Nat.mul_le_mul (n.ow_sum hn) (o.ow_sum ho)).trans (le_of_eq (by ring))
    have hlen : out.length ≤ 4 * (n.tableSize * o.tableSize) := by
      refine le_trans ?_ hsum
      rw [← Nat.mul_one out.length, ← Dfa.sum_const out]
      exact sum_mono (fun p _ => Nat.mul_pos (n.ow_pos _) (o.ow_pos _))
    have hw : (out.map (pairWork n o (trans n o))).sum ≤ 16 * (n.tableSize * o.tableSize) := by
      have : (out.map (pairWork n o (trans n o))).sum ≤ (out.map (fun p => 4 * (n.ow p.1 * o.ow p.2))).sum :=
        sum_mono (fun p hp => pairWork_le hn (hbound p hp))
      rw [sum_map_mul] at this
      omega
    have hc := exploreCost_eq (test := fun _ => 0) (work := pairWork n o (trans n o)) _ _ _ _ _ _ he
    simp only [List.map_nil, List.sum_nil, Nat.add_zero] at hc
    rw [sum_map_add, Dfa.sum_const] at hc
    have hseen := explore_length _ _ _ _ _ _ he (by simp) (by simp)
    have he' : explore id (fun p => (pairRow n o (trans n o) p).flatten ++ pairEps n o p)
      (fun _ => true) ((n.states.length + 1) * (o.states.length + 1) + 1)
      [(some n.initialState, some o.initialState)] [(some n.initialState, some o.initialState)] [] =
      some (some (out, seen)) := he
    have hc' : exploreCost id (fun p => (pairRow n o (trans n o) p).flatten ++ pairEps n o p) (fun _ => true) (fun _ => 0) (pairWork n o (trans n o))
      ((n.states.length + 1) * (o.states.length + 1) + 1)
      [(some n.initialState, some o.initialState)] [(some n.initialState, some o.initialState)] = _ := hc
    have ht : n.alphabet.map (fun e => o.alphabet.idxOf e) = trans n o := rfl
    rw [ht]
    dsimp only
    rw [he', hc']
    dsimp only
    have hal : n.alphabet.length * (1 + o.alphabet.length) ≤ n.tableSize * o.tableSize := Nat.mul_le_mul (by omega) (by omega)
    have fin : 1 + alphabetEqualCost n.alphabet o.alphabet + (n.alphabet.length * (1 + o.alphabet.length) +
      (1 + (out.length * 1 + (out.map (pairWork n o (trans n o))).sum)) + (2 * seen.length + out.length + (out.map (pairWork n o (trans n o))).sum)) ≤
      60 * (n.tableSize * o.tableSize) := by omega
    exact fin

/-! ### Union -/

theorem freshNumberCost_le (names : List Str) : ∀ k i, freshNumberCost names k i ≤ k * (1 + names.length)
  | 0, _ => by simp [freshNumberCost]
  | k + 1, i => by
    rw [freshNumberCost, Nat.add_mul, Nat.one_mul]
    have := freshNumberCost_le names k (i + 1)
    split <;> omega

theorem freshCost_le (names : List Str) (w : Str) : freshCost names w ≤ 2 * (1 + names.length) ^ 2 := by
  have h := freshNumberCost_le names (names.length + 1) 0
  have e : 2 * (1 + names.length) ^ 2 = (names.length + 1) * (1 + names.length) + (1 + names.length) + (1 + names.length) * names.length := by ring
  rw [freshCost]
  split <;> omega

theorem unionCost_le {n o : Nfa} (hn : n.WF) (ho : o.WF) : n.unionCost o ≤ 40 * (n.tableSize + o.tableSize) ^ 2 := by
  obtain ⟨h1, h2, h3, _, _, _⟩ := nums hn
  obtain ⟨g1, g2, g3, g4, _, _⟩ := nums ho
  have ha := Dfa.alphabetEqualCost_le n.alphabet o.alphabet
  have hU : n.tableSize + o.tableSize ≤ (n.tableSize + o.tableSize) ^ 2 := by nlinarith
  rw [unionCost]
  split
  · omega
  · rename_i hs
    have hs' : SameElems n.alphabet o.alphabet := (alphabetEqual_iff hn.alphabet_nodup ho.alphabet_nodup).1 (by simpa using hs)
    obtain ⟨u, hu, hf⟩ := union_eq hn ho hs'
    rw [alphabetTranslation_eq (fun e he => (hs' e).2 he), hu]
    have hlen : (u.states.dropLast.map (·.name)).length = n.states.length + o.states.length := by
      have := hf.len
      simp only [List.length_map, List.length_dropLast]
      omega
    have e1 := freshCost_le (u.states.dropLast.map (·.name)) sNew
    rw [hlen] at e1
    have e2 := o.remapCost_le (c := 1) (le_refl 1)
    have e3 : (if isIncreasing (o.alphabet.map (fun e => n.alphabet.idxOf e)) then 0
       else (o.states.map (fun s => 1 + 2 * s.transitions.length + sortCost s.transitions.length)).sum) ≤
       4 * (n.tableSize + o.tableSize) ^ 2 := by
      split
      · omega
      · have := Dfa.sum_map_le (l := o.states) (f := fun s => 1 + 2 * s.transitions.length + sortCost s.transitions.length)
          (B := 3 * ((o.alphabet.length + 1) * (o.alphabet.length + 1))) (by
          intro s hs
          rw [ho.row_len s hs, sortCost]
          have := log2_le o.alphabet.length
          have : o.alphabet.length * (1 + Nat.log2 o.alphabet.length) ≤ o.alphabet.length * (1 + o.alphabet.length) := Nat.mul_le_mul_left _ (by omega)
          nlinarith)
        have e : o.states.length * (3 * ((o.alphabet.length + 1) * (o.alphabet.length + 1))) =
            3 * ((o.states.length * (o.alphabet.length + 1)) * (o.alphabet.length + 1)) := by ring
        have e' : (o.states.length * (o.alphabet.length + 1)) * (o.alphabet.length + 1) ≤ o.tableSize * o.tableSize := Nat.mul_le_mul g4 g3
        have e'' : o.tableSize * o.tableSize ≤ (n.tableSize + o.tableSize) ^ 2 := by nlinarith
        omega
    have e4 : o.alphabet.length * (1 + n.alphabet.length) ≤ (n.tableSize + o.tableSize) ^ 2 := by
      rw [pow_two]; exact Nat.mul_le_mul (by omega) (by omega)
    have e5 : (1 + (n.states.length + o.states.length)) ^ 2 ≤ 4 * (n.tableSize + o.tableSize) ^ 2 := by
      have : 4 * (n.tableSize + o.tableSize) ^ 2 = (2 * (n.tableSize + o.tableSize)) ^ 2 := by ring
      rw [this]
      exact Nat.pow_le_pow_left (by omega) 2
    dsimp only
    generalize (n.tableSize + o.tableSize) ^ 2 = Q at *
    have fin : 1 + alphabetEqualCost n.alphabet o.alphabet + (o.alphabet.length * (1 + n.alphabet.length) + o.alphabet.length +
      (if isIncreasing (o.alphabet.map (fun e => n.alphabet.idxOf e)) then 0
       else (o.states.map (fun s => 1 + 2 * s.transitions.length + sortCost s.transitions.length)).sum) +
      o.remapCost 1 + o.states.length + 2 * (n.states.length + o.states.length) + freshCost (u.states.dropLast.map (·.name)) sNew +
      n.alphabet.length + 1) ≤ 40 * Q := by omega
    exact fin

/-! ### Epsilon moves -/

theorem deadCost_le {sts : List NfaState} {R : Nat} (h : (sts.map rowCost).sum ≤ R) : ∀ (k : Nat) (dead : List Nat), deadCost sts k dead ≤ k * (1 + R)
  | 0, _ => by simp [deadCost]
  | k + 1, dead => by
    rw [deadCost, Nat.add_mul, Nat.one_mul]
    have := deadCost_le h k (deadPass sts.zipIdx dead)
    split <;> omega

theorem closures_length {n : Nfa} (hn : n.WF) {t : Nat} (ht : t < n.states.length) : (n.closures.getD t []).length ≤ n.states.length := by
  classical
  have hex : ∀ q, ∃ c : List Nat, q < n.states.length → n.closure q = some c ∧ c.length ≤ n.states.length := by
    intro q
    by_cases hq : q < n.states.length
    · obtain ⟨r, h1, _⟩ := closure_spec hn hq; exact ⟨r, fun _ => ⟨h1, (closure_length hn h1 hq).1⟩⟩
    · exact ⟨[], fun h => absurd h hq⟩
  choose cl hcl using hex
  have : n.closures = (List.range n.states.length).map cl := by
    unfold closures
    rw [← List.filterMap_eq_map]
    apply List.filterMap_congr
    intro q hq
    rw [(hcl q (List.mem_range.1 hq)).1]; rfl
  rw [this, getD_eq_of_getElem? (a := cl t) (by simp [ht])]
  exact (hcl t ht).2

theorem sorted_foldl_sextend {α : Type} (f : α → List Nat) : ∀ (l : List α) (s : List Nat), s.Pairwise (· < ·) →
    (l.foldl (fun set t => sextend set (f t)) s).Pairwise (· < ·)
  | [], _, h => h
  | _ :: l, _, h => sorted_foldl_sextend f l _ (sorted_sextend h)

theorem inlined_rowCost {ordT : Nat → Nat → List Nat → List Nat} (hord : ∀ s c l, (ordT s c l).Perm l) {n : Nfa} (hn : n.WF) {q : Nat}
    (hq : q < n.states.length) : rowCost ((inlined ordT n).getD q default) ≤ 1 + n.alphabet.length * (1 + n.states.length) := by
  rw [inlined_state hq, rowCost]
  have := Dfa.sum_map_le (l := ((n.state q).transitions.zipIdx.map (fun p =>
        ordT q p.2 (p.1.foldl (fun set t => sextend set (n.closures.getD t [])) [])))) (f := fun ts => 1 + ts.length) (B := 1 + n.states.length) (by
    intro ts hts
    obtain ⟨⟨us, c⟩, hp, rfl⟩ := List.mem_map.1 hts
    dsimp only
    rw [(hord _ _ _).length_eq]
    refine Nat.add_le_add_left (nodup_length_le (sorted_nodup (sorted_foldl_sextend _ _ _ List.Pairwise.nil)) ?_) _
    intro x hx
    rw [mem_foldl_sextend] at hx
    rcases hx with hx | ⟨t, h1, h2⟩
    · simp at hx
    · have ht : t < n.states.length := hn.targets _ (state_mem hq) us (List.fst_mem_of_mem_zipIdx hp) t h1
      exact EpsR.lt hn ht ((mem_closures hn ht).1 h2))
  rw [List.length_map, List.length_zipIdx, hn.row_len _ (state_mem hq)] at this
  dsimp only
  omega

theorem map_getD_range {α β : Type} (l : List α) (d : α) (f : α → β) : l.map f = (List.range l.length).map (fun i => f (l.getD i d)) := by
  apply List.ext_getElem
  · simp
  · intro i h1 h2
    simp only [List.length_map] at h1
    simp [h1]

theorem rows_sum {n : Nfa} (hn : n.WF) {sts : List NfaState} (hl : sts.length = n.states.length)
    (h : ∀ q < n.states.length, rowCost (sts.getD q default) ≤ 1 + n.alphabet.length * (1 + n.states.length)) :
    (sts.map rowCost).sum ≤ 2 * (n.states.length * n.tableSize) := by
  obtain ⟨h1, h2, h3, h4, h5, h6⟩ := nums hn
  rw [map_getD_range sts default, hl]
  have := Dfa.sum_map_le (l := List.range n.states.length) (f := fun i => rowCost (sts.getD i default)) (fun q hq => h q (List.mem_range.1 hq))
  rw [List.length_range] at this
  refine this.trans ?_
  have e1 : n.states.length * (1 + n.alphabet.length * (1 + n.states.length)) ≤ (n.states.length * (n.alphabet.length + 1)) * (1 + n.states.length) := by nlinarith
  have e2 : (n.states.length * (n.alphabet.length + 1)) * (1 + n.states.length) ≤ n.tableSize * (1 + n.states.length) := Nat.mul_le_mul_right _ h4
  have e3 : n.tableSize * (1 + n.states.length) = n.tableSize + n.states.length * n.tableSize := by ring
  omega

theorem inlineCost_sum {n : Nfa} (hn : n.WF) : (n.states.map (inlineCost n.closures)).sum ≤ 4 * (n.states.length * n.tableSize) := by
  obtain ⟨h1, h2, h3, h4, h5, h6⟩ := nums hn
  have : (n.states.map (inlineCost n.closures)).sum ≤ (n.states.map (fun s => (2 * (1 + n.states.length)) *
      (1 + s.epsilonTransitions.length + (s.transitions.map (fun ts => 1 + ts.length)).sum))).sum := by
    refine sum_mono (fun s hs => ?_)
    rw [inlineCost]
    have : (s.transitions.map (fun ts => 1 + 2 * (ts.map (fun t => 1 + (n.closures.getD t []).length)).sum)).sum ≤
        (s.transitions.map (fun ts => (2 * (1 + n.states.length)) * (1 + ts.length))).sum := by
      refine sum_mono (fun ts hts => ?_)
      have := Dfa.sum_map_le (l := ts) (f := fun t => 1 + (n.closures.getD t []).length) (B := 1 + n.states.length)
        (fun t ht => Nat.add_le_add_left (closures_length hn (hn.targets s hs ts hts t ht)) _)
      nlinarith
    rw [sum_map_mul] at this
    rw [Nat.mul_add, Nat.mul_add]
    omega
  rw [sum_map_mul] at this
  rw [← tableSize] at this
  have e : 2 * (1 + n.states.length) * n.tableSize = 2 * n.tableSize + 2 * (n.states.length * n.tableSize) := by ring
  omega

theorem removeDeadCost_le {N k T : Nat} (h1 : 1 ≤ N) (h2 : N ≤ T) (h3 : N * (k + 1) ≤ T) : removeDeadCost (N + 1) k ≤ 50 * (N * N * T) := by
  have l := log2_le (N + 1)
  have a0 : N * N ≤ N * N * T := Nat.le_mul_of_pos_right _ (by omega)
  have a1 : N ≤ N * N := Nat.le_mul_of_pos_left _ h1
  have aT : T ≤ N * N * T := Nat.le_mul_of_pos_left _ (by nlinarith)
  have b1 : (N + 1) * k ≤ 2 * T := by nlinarith
  have hs : searchCost (N + 1) ≤ 3 * N := by rw [searchCost]; omega
  have c1 : (N + 1) * (1 + k * (1 + (N + 1))) ≤ 8 * (N * N * T) := by
    have e : (N + 1) * (1 + k * (1 + (N + 1))) = (N + 1) + ((N + 1) * k) * (N + 2) := by ring
    have e2 : ((N + 1) * k) * (N + 2) ≤ (2 * T) * (3 * (N * N)) := Nat.mul_le_mul b1 (by nlinarith)
    have e3 : (2 * T) * (3 * (N * N)) = 6 * (N * N * T) := by ring
    omega
  have c2 : sortCost (N + 1) ≤ 6 * (N * N * T) := by
    rw [sortCost]
    have : (N + 1) * (1 + Nat.log2 (N + 1)) ≤ (2 * N) * (3 * N) := Nat.mul_le_mul (by omega) (by omega)
    have e : (2 * N) * (3 * N) = 6 * (N * N) := by ring
    omega
  have c3 : (N + 1) * (1 + (N + 1)) ≤ 6 * (N * N * T) := by
    have : (N + 1) * (1 + (N + 1)) ≤ (2 * N) * (3 * N) := Nat.mul_le_mul (by omega) (by omega)
    have e : (2 * N) * (3 * N) = 6 * (N * N) := by ring
    omega
  have c4 : (N + 1) * (1 + k * (1 + (N + 1) * searchCost (N + 1))) ≤ 16 * (N * N * T) := by
    have e : (N + 1) * (1 + k * (1 + (N + 1) * searchCost (N + 1))) = (N + 1) + ((N + 1) * k) * (1 + (N + 1) * searchCost (N + 1)) := by ring
    have e2 : (N + 1) * searchCost (N + 1) ≤ (2 * N) * (3 * N) := Nat.mul_le_mul (by omega) hs
    have e3 : (2 * N) * (3 * N) = 6 * (N * N) := by ring
    have e4 : ((N + 1) * k) * (1 + (N + 1) * searchCost (N + 1)) ≤ (2 * T) * (7 * (N * N)) := Nat.mul_le_mul b1 (by omega)
    have e5 : (2 * T) * (7 * (N * N)) = 14 * (N * N * T) := by ring
    omega
  rw [removeDeadCost]
  omega

theorem removeEpsilonCost_le {ordT : Nat → Nat → List Nat → List Nat} (hord : ∀ s c l, (ordT s c l).Perm l) {n : Nfa} (hn : n.WF) :
    n.removeEpsilonCost ordT ≤ 100 * (n.states.length * n.states.length * n.tableSize) := by
  obtain ⟨h1, h2, h3, h4, h5, h6⟩ := nums hn
  have hNN : n.states.length ≤ n.states.length * n.states.length := Nat.le_mul_of_pos_left _ h1
  have hP : n.states.length * n.tableSize ≤ n.states.length * n.states.length * n.tableSize := Nat.mul_le_mul_right _ hNN
  rw [removeEpsilonCost]
  split
  · omega
  · have hrow := fun q hq => inlined_rowCost (ordT := ordT) hord hn (q := q) hq
    have hcost : ∀ {sts : List NfaState}, (sts.map rowCost).sum ≤ 2 * (n.states.length * n.tableSize) → ∀ D,
        deadCost sts (n.states.length + 1) D ≤ 6 * (n.states.length * n.states.length * n.tableSize) := by
      intro sts hs D
      refine (deadCost_le hs _ D).trans ?_
      refine (Nat.mul_le_mul (show n.states.length + 1 ≤ 2 * n.states.length by omega)
        (show 1 + 2 * (n.states.length * n.tableSize) ≤ 3 * (n.states.length * n.tableSize) by omega)).trans (le_of_eq (by ring))
    have r1 := hcost (rows_sum hn inlined_length hrow) []
    have r2 := inlineCost_sum hn
    have r3 := Dfa.sum_map_le (l := List.range n.states.length) (f := n.closureCost) (fun q _ => closureCost_le hn q)
    rw [List.length_range] at r3
    have r3' : n.states.length * (4 * n.tableSize) = 4 * (n.states.length * n.tableSize) := by ring
    obtain ⟨D, d1, d2, d3, _⟩ := deadLoop_spec (sts := inlined ordT n) (n.states.length + 1) [] (deadInv_nil _) (by rw [inlined_length]; simp)
    have m1 : (List.range n.states.length).filterMap n.closure = n.closures := rfl
    have m2 : (n.states.zipIdx.map (fun p => { p.1 with
      transitions := p.1.transitions.zipIdx.map (fun q => ordT p.2 q.2 (q.1.foldl (fun set t => sextend set (n.closures.getD t [])) []))
      epsilonTransitions := [] })) = inlined ordT n := rfl
    dsimp only
    rw [m1, m2, d1]
    dsimp only
    generalize hs2 : (inlined ordT n).modify n.initialState (fun s => { s with initial := false }) = sts2
    have hl2 : sts2.length = n.states.length := by rw [← hs2, List.length_modify, inlined_length]
    have hrow2 : ∀ q < n.states.length, rowCost (sts2.getD q default) ≤ 1 + n.alphabet.length * (1 + n.states.length) := by
      intro q hq
      have := hrow q hq
      rw [← hs2, modify_state (by rw [inlined_length]; exact hq)]
      split
      · exact this
      · exact this
    have r4 := hcost (rows_sum hn hl2 hrow2) (sins n.initialState D)
    have r5 := freshCost_le (sts2.map (·.name)) sNew
    rw [List.length_map, hl2] at r5
    have r6 := closures_length hn hn.init_lt
    have r7 := hrow2 _ hn.init_lt
    have hkN : n.alphabet.length * (1 + n.states.length) ≤ 2 * n.tableSize := by nlinarith
    have r8 := Dfa.sum_map_le (l := (n.closures.getD n.initialState []).filter (· ∉ D)) (f := fun s => 1 + rowCost (sts2.getD s default))
      (B := 4 * n.tableSize) (by
        intro x hx
        have hx' := (mem_closures hn hn.init_lt).1 (List.mem_filter.1 hx).1
        have := hrow2 x (EpsR.lt hn hn.init_lt hx')
        omega)
    have r8' : ((n.closures.getD n.initialState []).filter (· ∉ D)).length * (4 * n.tableSize) ≤ n.states.length * (4 * n.tableSize) :=
      Nat.mul_le_mul_right _ ((List.length_filter_le _ _).trans r6)
    have r9 := removeDeadCost_le h1 h2 h4
    have r10 : (1 + n.states.length) ^ 2 ≤ 4 * (n.states.length * n.states.length) := by nlinarith
    have fin : 1 + n.states.length + (((List.range n.states.length).map n.closureCost).sum + (n.states.map (inlineCost n.closures)).sum +
      deadCost (inlined ordT n) (n.states.length + 1) [] + ((n.closures.getD n.initialState []).length + rowCost (sts2.getD n.initialState default) +
      deadCost sts2 (n.states.length + 1) (sins n.initialState D) + freshCost (sts2.map (·.name)) sNew +
      (((n.closures.getD n.initialState []).filter (· ∉ D)).map (fun s => 1 + rowCost (sts2.getD s default))).sum + n.alphabet.length * (1 + n.states.length) +
      removeDeadCost (n.states.length + 1) n.alphabet.length)) ≤ 100 * (n.states.length * n.states.length * n.tableSize) := by omega
    exact fin

theorem restr_table {n : Nfa} {kept : List Nat} (h : RestrOk n kept) : (n.restr kept).tableSize ≤ n.tableSize := by
  refine le_trans (le_of_eq ?_) (wt_sum_le h.nodup h.lt)
  rw [tableSize]
  simp only [restr, List.map_map, Function.comp_def, List.length_map]
  rfl

theorem optimizeCost_le {ordU : List Nat → List Nat} {ordT : Nat → Nat → List Nat → List Nat} (hU : ∀ l, (ordU l).Perm l)
    (hord : ∀ s c l, (ordT s c l).Perm l) {n : Nfa} (hn : n.WF) :
    n.optimizeCost ordU ordT ≤ 140 * (n.states.length * n.states.length * n.tableSize) := by
  obtain ⟨h1, h2, h3, h4, h5, h6⟩ := nums hn
  have hNN : n.states.length ≤ n.states.length * n.states.length := Nat.le_mul_of_pos_left _ h1
  have hP : n.states.length * n.tableSize ≤ n.states.length * n.states.length * n.tableSize := Nat.mul_le_mul_right _ hNN
  obtain ⟨kept, k1, k2, k3, k4⟩ := removeUnreachableStates_eq hU hn
  have e1 := removeUnreachableCost_le hn
  have e2 := removeEpsilonCost_le hord (restr_wf' hn k3)
  have e3 : (n.restr kept).states.length ≤ n.states.length := by
    have := nodup_length_le k3.nodup k3.lt
    simpa [restr] using this
  have e4 := restr_table k3
  have e5 : (n.restr kept).states.length * (n.restr kept).states.length * (n.restr kept).tableSize ≤ n.states.length * n.states.length * n.tableSize :=
    Nat.mul_le_mul (Nat.mul_le_mul e3 e3) e4
  rw [optimizeCost, k4]
  dsimp only
  omega

/-! ### The bounds on the rounds do not cut the work short -/

theorem includeClosureCost_more {n : Nfa} (hn : n.WF) (j : Nat) : ∀ (k : Nat) (cur : List Nat), cur.Pairwise (· < ·) →
    (∀ x ∈ cur, x < n.states.length) → n.states.length - cur.length + 1 ≤ k → n.includeClosureCost (k + j) cur = n.includeClosureCost k cur
  | 0, _, _, _, h => by omega
  | k + 1, cur, hs, hlt, hk => by
    rw [Nat.add_right_comm, includeClosureCost, includeClosureCost]
    split
    · rfl
    · rename_i he
      have hs' := sorted_sextend (l := n.closureRound cur) hs
      have hlt' : ∀ x ∈ sextend cur (n.closureRound cur), x < n.states.length := by
        intro x hx
        rw [mem_sextend] at hx
        rcases hx with hx | hx
        · exact hlt x hx
        · obtain ⟨⟨s, _, h2⟩, _⟩ := mem_closureRound.1 hx
          exact ep_lt hn h2
      have hlen : cur.length + 1 ≤ (sextend cur (n.closureRound cur)).length := by
        obtain ⟨x, hx⟩ := List.exists_mem_of_ne_nil _ he
        have hnd : (x :: cur).Nodup := by
          rw [List.nodup_cons]; exact ⟨(mem_closureRound.1 hx).2, sorted_nodup hs⟩
        have := nodup_subset_length_le hnd (K := sextend cur (n.closureRound cur)) (by
          intro y hy
          rw [mem_sextend]
          rw [List.mem_cons] at hy
          rcases hy with rfl | hy
          · exact Or.inr hx
          · exact Or.inl hy)
        simpa using this
      have hle := nodup_length_le (sorted_nodup hs') hlt'
      rw [includeClosureCost_more hn j k _ hs' hlt' (by omega)]

theorem deadCost_more {sts : List NfaState} (j : Nat) : ∀ (k : Nat) (D : List Nat), deadLoop sts k D ≠ none →
    deadCost sts (k + j) D = deadCost sts k D
  | 0, _, h => by simp [deadLoop] at h
  | k + 1, D, h => by
    rw [deadLoop] at h
    rw [Nat.add_right_comm, deadCost, deadCost]
    split
    · rfl
    · rename_i hd
      rw [if_neg hd] at h
      rw [deadCost_more j k _ h]

theorem freshNumberCost_more (names : List Str) (j : Nat) : ∀ k i, (∃ m, i ≤ m ∧ m < i + k ∧ numStr m ∉ names) →
    freshNumberCost names (k + j) i = freshNumberCost names k i
  | 0, i, h => by obtain ⟨m, h1, h2, _⟩ := h; omega
  | k + 1, i, h => by
    rw [Nat.add_right_comm, freshNumberCost, freshNumberCost]
    split
    · rename_i hi
      obtain ⟨m, h1, h2, h3⟩ := h
      rw [freshNumberCost_more names j k (i + 1) ⟨m, by
        rcases Nat.lt_or_ge i m with h | h
        · omega
        · exact absurd ((show i = m by omega) ▸ hi) h3, by omega, h3⟩]
    · rfl

end Nfa
end Dandy
