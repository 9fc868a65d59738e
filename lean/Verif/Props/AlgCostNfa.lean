import Verif.Proofs.AlgCostNfaOps
import Verif.Props.Sizes
import Verif.Props.Samples
/-! # C93: how much work the algorithms on NFAs do -/

namespace Dandy
open Samples RegexTree RegexParser P

/-- **C93** Evaluating a word takes time linear in the length of the word, for a fixed NFA; and at most quadratic in the size of the table. -/
theorem C93_accepts (n : Nfa) (hn : n.WF) (w : List Str) : n.acceptsCost w ≤ 12 * (w.length + 1) * n.tableSize ^ 2 := Nfa.acceptsCost_le hn w

/-- An NFA with epsilon moves and six states. -/
example : epsNfa.WF ∧ epsNfa.tableSize = 31 ∧ epsNfa.acceptsCost [s 'a', s 'b'] = 68 := ⟨epsNfa_wf, by decide +kernel⟩

/-- **C93** Searching the reachable states, removing the others, and computing an epsilon closure. -/
theorem C93_reachable (n : Nfa) (hn : n.WF) :
    (∀ q, n.closureCost q ≤ 4 * n.tableSize) ∧
    n.reachableCost ≤ 10 * (n.states.length * n.tableSize) ∧
    n.removeUnreachableCost ≤ 30 * (n.states.length * n.tableSize) :=
  ⟨Nfa.closureCost_le hn, Nfa.reachableCost_le hn, Nfa.removeUnreachableCost_le hn⟩

example : epsNfa.states.length = 6 ∧ epsNfa.closureCost 0 = 13 ∧ epsNfa.reachableCost = 73 ∧ epsNfa.removeUnreachableCost = 163 := by decide +kernel

/-- **C93** Removing the epsilon moves and optimizing. -/
theorem C93_optimize (ordU : List Nat → List Nat) (ordT : Nat → Nat → List Nat → List Nat) (hU : ∀ l, (ordU l).Perm l)
    (hT : ∀ s c l, (ordT s c l).Perm l) (n : Nfa) (hn : n.WF) :
    n.removeEpsilonCost ordT ≤ 100 * (n.states.length * n.states.length * n.tableSize) ∧
    n.optimizeCost ordU ordT ≤ 140 * (n.states.length * n.states.length * n.tableSize) :=
  ⟨Nfa.removeEpsilonCost_le hT hn, Nfa.optimizeCost_le hU hT hn⟩

example : epsNfa.removeEpsilonCost (fun _ _ l => l) = 842 ∧ epsNfa.optimizeCost id (fun _ _ l => l) = 807 := by decide +kernel

/-- **C93** Union and product constructions: at most quadratic, and proportional to the product of the sizes of the tables. -/
theorem C93_binary (n o : Nfa) (hn : n.WF) (ho : o.WF) :
    n.unionCost o ≤ 40 * (n.tableSize + o.tableSize) ^ 2 ∧ n.productCost o ≤ 60 * (n.tableSize * o.tableSize) :=
  ⟨Nfa.unionCost_le hn ho, Nfa.productCost_le hn ho⟩

example : evenA.WF ∧ evenA.tableSize = 14 ∧ epsNfa.unionCost evenA = 94 ∧ epsNfa.productCost evenA = 291 := ⟨evenA_wf, by decide +kernel⟩

/-- **C93** Determinising takes time proportional to the number of states of the result, and comparing two NFAs to the product of these numbers. -/
theorem C93_subsets (n o : Nfa) (hn : n.WF) (ho : o.WF) (d e : Dfa) (hd : n.toDfa = some d) (he : o.toDfa = some e) :
    n.toDfaCost ≤ 60 * ((d.states.length + 1) * ((n.alphabet.length + 1) * n.tableSize ^ 2)) ∧
    n.equivalentCost o ≤ 40 * ((d.states.length * e.states.length + 1) * ((n.alphabet.length + 1) * (n.tableSize + o.tableSize) ^ 2)) :=
  ⟨Nfa.toDfaCost_le hn hd, Nfa.equivalentCost_le hn ho hd he⟩

example : (epsNfa.toDfa.map (·.states.length), evenA.toDfa.map (·.states.length)) = (some 3, some 4) ∧ epsNfa.toDfaCost = 668 ∧
    epsNfa.equivalentCost evenA = 79 := by decide +kernel

/-- **C93** It is not less than the number of states of the result, also for comparing an NFA with itself. -/
theorem C93_subsets_lower (n : Nfa) (hn : n.WF) (d : Dfa) (hd : n.toDfa = some d) :
    d.states.length ≤ n.toDfaCost ∧ d.states.length ≤ n.equivalentCost n := by
  constructor
  · obtain ⟨out, seen, he, hE⟩ := Nfa.explore_sets hn
    have hlen := Nfa.seen_length hn hd hE
    have hc := exploreCost_eq (test := fun _ => 0) (work := Nfa.subsetWork) _ _ _ _ _ _ he
    simp only [List.map_nil, List.sum_nil, Nat.add_zero] at hc
    rw [sum_map_add, Dfa.sum_const, ← hE.perm.length_eq, ← hlen] at hc
    rw [Nfa.toDfaCost, hc]
    omega
  · have hs : SameElems n.alphabet n.alphabet := fun _ => Iff.rfl
    have hinit : (NfaEval.new n, NfaEval.new n) = Nfa.evp n n n.iset n.iset := rfl
    have ha := (alphabetEqual_iff hn.alphabet_nodup hn.alphabet_nodup).2 hs
    obtain ⟨b, hb, hb2⟩ := Nfa.equivalentTo_spec hn hn
    have hbt : b = true := hb2.2 ⟨hs, fun _ => Iff.rfl⟩
    subst hbt
    rw [Nfa.equivalentTo, ha] at hb
    simp only [Bool.not_true, Bool.false_eq_true, if_false] at hb
    rcases Nfa.explore_pair hn hn hs (fun p => p.1.isAccepting == p.2.isAccepting) with ⟨he, _⟩ | ⟨out, seen, he, hE⟩
    · rw [he] at hb; simp at hb
    obtain ⟨ks, k1, k2⟩ := Nfa.toDfa_eq hn
    rw [k1, Option.some.injEq] at hd
    have e1 : d.states.length = ks.length := by rw [← hd]; simp [Nfa.subsetOf]
    have hlen : ks.length ≤ out.length := by
      have h1 : (ks.map (fun S => (S, S))).Nodup := List.Nodup.map (fun a b h => (Prod.mk.inj h).1) k2.nodup
      have h2 := nodup_subset_length_le (K := seen.map Nfa.pairKey) h1 (by
        intro k hk
        obtain ⟨S, hS, rfl⟩ := List.mem_map.1 hk
        obtain ⟨w, hw⟩ := (k2.mem_iff S).1 hS
        refine List.mem_map.2 ⟨Nfa.evp n n S S, ?_, rfl⟩
        rw [hE.mem_iff, hinit, Nfa.pair_reach hs]
        exact ⟨w, S, S, hw, hw, rfl⟩)
      rw [List.length_map, List.length_map, hE.perm.length_eq] at h2
      exact h2
    have hc := exploreCost_eq (test := fun p : NfaEval × NfaEval => p.1.acceptingCost + p.2.acceptingCost) (work := Nfa.pairStepWork n.alphabet) _ _ _ _ _ _ he
    simp only [List.map_nil, List.sum_nil, Nat.add_zero] at hc
    rw [sum_map_add, sum_map_add, Dfa.sum_const] at hc
    rw [Nfa.equivalentCost, ha]
    simp only [Bool.not_true, Bool.false_eq_true, if_false]
    rw [hc]
    omega

example : epsNfa.equivalentCost epsNfa = 568 := by decide +kernel

/-- **C93** So determinising, and comparing an NFA with itself, can take exponentially many steps: for every `k` there is a regular expression of
`5k + 7` characters, whose NFA has at most `20k + 27` states, for which both take at least `2^(k+1)` steps. -/
theorem C93_exponential (cl : Str → Nat) (h : Segmentation cl) (hcl : LettersApart cl) (k : Nat) :
    (lookBack k).length = 5 * k + 7 ∧ ∃ t, regex cl (lookBack k) = some t ∧ (toNfa t).states.length ≤ 20 * k + 27 ∧
      2 ^ (k + 1) ≤ (toNfa t).toDfaCost ∧ 2 ^ (k + 1) ≤ (toNfa t).equivalentCost (toNfa t) := by
  obtain ⟨h1, t, h2, _, h3, h4, _⟩ := C83_to_dfa_large cl h hcl k
  have hwf : (toNfa t).WF := toNfa_wf t
  obtain ⟨ks, k1, _⟩ := Nfa.toDfa_eq hwf
  obtain ⟨g1, g2⟩ := C93_subsets_lower _ hwf _ k1
  have := (h4 _ k1).1
  exact ⟨h1, t, h2, h3, this.trans g1, this.trans g2⟩

/-- For `k = 2`: 17 characters, 18 states. -/
example : Segmentation cl1 ∧ LettersApart cl1 ∧ (regex cl1 (lookBack 2)).map (fun t => ((toNfa t).toDfaCost, (toNfa t).equivalentCost (toNfa t))) = some (7497, 5744) :=
  ⟨cl1_seg, fun c s _ _ => by simp [cl1], by decide +kernel⟩

/-- **C93** The numbers count complete executions: with any larger bound on the number of rounds of the loops they are the same. -/
theorem C93_complete (n o : Nfa) (hn : n.WF) (ho : o.WF) (h : SameElems n.alphabet o.alphabet) (j : Nat) :
    (∀ (test work : NfaEval → Nat),
      exploreCost NfaEval.currentStatesIdx NfaEval.stepAll (fun _ => true) test work (2 ^ n.states.length + 1 + j) [NfaEval.new n] [NfaEval.new n] =
      exploreCost NfaEval.currentStatesIdx NfaEval.stepAll (fun _ => true) test work (2 ^ n.states.length + 1) [NfaEval.new n] [NfaEval.new n]) ∧
    (∀ (ok : NfaEval × NfaEval → Bool) (test work : NfaEval × NfaEval → Nat),
      exploreCost Nfa.pairKey (Nfa.pairSucc n.alphabet) ok test work (2 ^ (n.states.length + o.states.length) + 1 + j) [(NfaEval.new n, NfaEval.new o)] [(NfaEval.new n, NfaEval.new o)] =
      exploreCost Nfa.pairKey (Nfa.pairSucc n.alphabet) ok test work (2 ^ (n.states.length + o.states.length) + 1) [(NfaEval.new n, NfaEval.new o)] [(NfaEval.new n, NfaEval.new o)]) ∧
    (∀ (test work : Nfa.OPair → Nat) (tr : List Nat), Nfa.alphabetTranslation n.alphabet o.alphabet = some tr →
      exploreCost id (fun p => (Nfa.pairRow n o tr p).flatten ++ Nfa.pairEps n o p) (fun _ => true) test work ((n.states.length + 1) * (o.states.length + 1) + 1 + j)
        [(some n.initialState, some o.initialState)] [(some n.initialState, some o.initialState)] =
      exploreCost id (fun p => (Nfa.pairRow n o tr p).flatten ++ Nfa.pairEps n o p) (fun _ => true) test work ((n.states.length + 1) * (o.states.length + 1) + 1)
        [(some n.initialState, some o.initialState)] [(some n.initialState, some o.initialState)]) ∧
    (∀ (work : Nat → Nat) (q : Nat), q < n.states.length →
      bfsCost (fun q => some (n.state q).epsilonTransitions) work (n.states.length + 1 + j) [q] [q] =
      bfsCost (fun q => some (n.state q).epsilonTransitions) work (n.states.length + 1) [q] [q]) ∧
    (∀ work : Nat → Nat,
      bfsCost (fun q => (n.closure q).map (fun c => (n.state q).transitions.flatten ++ c)) work (n.states.length + 1 + j) [n.initialState] [n.initialState] =
      bfsCost (fun q => (n.closure q).map (fun c => (n.state q).transitions.flatten ++ c)) work (n.states.length + 1) [n.initialState] [n.initialState]) ∧
    (∀ S, S.Pairwise (· < ·) → (∀ x ∈ S, x < n.states.length) →
      n.includeClosureCost (n.states.length + 1 + j) S = n.includeClosureCost (n.states.length + 1) S) ∧
    (∀ sts : List NfaState, Nfa.deadCost sts (sts.length + 1 + j) [] = Nfa.deadCost sts (sts.length + 1) []) ∧
    (∀ names : List Str, Nfa.freshNumberCost names (names.length + 1 + j) 0 = Nfa.freshNumberCost names (names.length + 1) 0) := by
  refine ⟨fun test work => exploreCost_more j _ _ _ [] ?_, fun ok test work => exploreCost_more j _ _ _ [] ?_, fun test work tr htr => ?_,
    fun work q hq => bfsCost_more j _ _ _ ?_, fun work => bfsCost_more j _ _ _ ?_, fun S h1 h2 => ?_, fun sts => ?_, fun names => ?_⟩
  · obtain ⟨out, seen, he, _⟩ := Nfa.explore_sets hn
    rw [he]; simp
  · rcases Nfa.explore_pair hn ho h ok with ⟨he, _⟩ | ⟨_, _, he, _⟩ <;> rw [he] <;> simp
  · rw [Nfa.alphabetTranslation_eq (fun e he => (h e).1 he), Option.some.injEq] at htr
    subst htr
    obtain ⟨out, seen, he, _⟩ := Nfa.product_eq_out hn ho h
    refine exploreCost_more j _ _ _ [] (fun hc => ?_)
    have := he.symm.trans hc
    simp at this
  · obtain ⟨r, h1, _⟩ := Nfa.closure_spec hn hq
    rw [Nfa.closure, if_neg (by omega)] at h1
    rw [h1]; simp
  · obtain ⟨r, h1, _⟩ := Nfa.reachableStateIdx_spec hn
    rw [Nfa.reachableStateIdx] at h1
    rw [h1]; simp
  · exact Nfa.includeClosureCost_more hn j _ _ h1 h2 (by omega)
  · obtain ⟨D, h1, _⟩ := Nfa.deadLoop_spec (sts := sts) (sts.length + 1) [] (Nfa.deadInv_nil _) (by simp)
    exact Nfa.deadCost_more j _ _ (by rw [h1]; simp)
  · refine Nfa.freshNumberCost_more names j _ 0 ?_
    rcases freshNumber_spec names (names.length + 1) 0 with ⟨m, h1, h2, _, h3⟩ | hall
    · exact ⟨m, h1, h2, h3⟩
    · exfalso
      have hnd : ((List.range (names.length + 1)).map numStr).Nodup := List.Nodup.map (fun _ _ h => numStr_inj h) List.nodup_range
      have := nodup_subset_length_le (K := names) hnd (by
        intro s hs
        obtain ⟨m, hm, rfl⟩ := List.mem_map.1 hs
        exact hall m (by omega) (by have := List.mem_range.1 hm; omega))
      simp at this

example : epsNfa.WF ∧ evenA.WF ∧ SameElems epsNfa.alphabet evenA.alphabet :=
  ⟨epsNfa_wf, evenA_wf, (alphabetEqual_iff epsNfa_wf.alphabet_nodup evenA_wf.alphabet_nodup).1 (by decide)⟩

end Dandy
