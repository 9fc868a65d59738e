import Mathlib.Data.Nat.ModEq
import Verif.Spec.AlgCost
import Verif.Proofs.AlgCost
import Verif.Props.DfaProduct
import Verif.Props.DfaMinimize
import Verif.Props.Samples
/-! # C92: how much work the algorithms on DFAs do -/

namespace Dandy
open Samples

/-- **C92** Searching the reachable states takes time linear in the size of the transition table. -/
theorem C92_reachable (d : Dfa) (hd : d.WF) : d.reachableCost ≤ 2 + d.states.length * (d.alphabet.length + 2) ∧
    d.unreachableCost ≤ 3 + d.states.length * (d.alphabet.length + 3) ∧
    d.hasReachableAcceptingCost ≤ 3 + d.states.length * (d.alphabet.length + 3) := by
  have h := Dfa.reachableCost_le hd
  have e : d.states.length * (d.alphabet.length + 3) = d.states.length * (d.alphabet.length + 2) + d.states.length := by ring
  refine ⟨h, by rw [Dfa.unreachableCost]; omega, ?_⟩
  obtain ⟨r, h1, h2, h3⟩ := Dfa.reachableStateIdx_spec hd
  have h4 := nodup_length_le (n := d.states.length) (sorted_nodup h2) (fun q hq => by
    obtain ⟨w, hw⟩ := (h3 q).1 hq
    exact Dfa.runE_lt hd hd.init_lt hw)
  rw [Dfa.hasReachableAcceptingCost, h1]
  simp only [Option.map_some, Option.getD_some]
  omega

example : oddA.WF ∧ oddA.reachableCost = 10 ∧ oddA.unreachableCost = 14 ∧ oddA.hasReachableAcceptingCost = 13 :=
  ⟨oddA_wf, by decide +kernel⟩

/-- **C92** Deciding equivalence takes time proportional to the product of the numbers of states and the square of the size of the alphabet. -/
theorem C92_equivalent (d o : Dfa) :
    d.equivalentCost o ≤ 6 * (d.alphabet.length + 1) ^ 2 * (d.states.length * o.states.length + 1) := Dfa.equivalentCost_le d o

example : oddA.equivalentCost endsB = 38 ∧ oddA.equivalentCost oddA = 57 ∧ oddA.equivalentCost overC = 2 := by decide +kernel

/-- **C92** The product constructions (union, intersection, difference, symmetric difference, and with an own combinator) take time proportional to the
number of states of the result and the square of the size of the alphabet. -/
theorem C92_product (ord : List (Nat × Nat) → List (Nat × Nat)) (hord : ∀ l, (ord l).Perm l) (d o p : Dfa) (hd : d.WF) (ho : o.WF)
    (comb : DfaState → DfaState → Bool) (hp : Dfa.product ord d o comb = some (some p)) :
    d.productCost o ≤ 6 * (d.alphabet.length + 1) ^ 2 * (p.states.length + 1) := Dfa.productCost_le hord hd ho hp

example : (Dfa.union id oddA endsB).map (Option.map (·.states.length)) = some (some 4) ∧ oddA.productCost endsB = 121 := by decide +kernel

/-- **C92** Computing the classes of equivalent states and minimizing take at most cubic time in the number of states, and linear time in the size of
the alphabet. -/
theorem C92_minimize (ordU ord : List Nat → List Nat) (hU : ∀ l, (ordU l).Perm l) (hord : ∀ l, (ord l).Perm l) (d : Dfa) (hd : d.WF) :
    d.classesCost ≤ 2 * (d.states.length + 1) ^ 3 + 8 * d.alphabet.length * (d.states.length + 1) ^ 2 ∧
    d.mergeCost ord ≤ 2 * (d.states.length + 1) ^ 3 + 16 * (d.alphabet.length + 1) * (d.states.length + 1) ^ 2 ∧
    d.removeUnreachableCost ≤ 8 * (d.alphabet.length + 1) * (d.states.length + 1) ^ 2 ∧
    d.minimizeCost ordU ord ≤ 2 * (d.states.length + 1) ^ 3 + 25 * (d.alphabet.length + 1) * (d.states.length + 1) ^ 2 :=
  ⟨Dfa.classesCost_le hd, Dfa.mergeCost_le hord hd, Dfa.removeUnreachableCost_le hd, Dfa.minimizeCost_le hU hord hd⟩

example : redundant.WF ∧ redundant.classesCost = 217 ∧ redundant.minimizeCost id id = 330 := ⟨redundant_wf, by decide +kernel⟩

/-- **C92** These numbers count complete executions: with any larger bound on the number of rounds of the loops they are the same. -/
theorem C92_complete (d o : Dfa) (hd : d.WF) (ho : o.WF) (h : SameElems d.alphabet o.alphabet) (j : Nat) :
    (∀ (ok : DfaEval × DfaEval → Bool) (test work : DfaEval × DfaEval → Nat),
      exploreCost Dfa.pairKey (Dfa.pairSucc d.alphabet) ok test work (Dfa.pairFuel d o + j) [(DfaEval.new d, DfaEval.new o)] [(DfaEval.new d, DfaEval.new o)] =
      exploreCost Dfa.pairKey (Dfa.pairSucc d.alphabet) ok test work (Dfa.pairFuel d o) [(DfaEval.new d, DfaEval.new o)] [(DfaEval.new d, DfaEval.new o)]) ∧
    (∀ work : Nat → Nat, bfsCost (fun q => some (d.state q).transitions) work (d.states.length + 1 + j) [d.initialState] [d.initialState] =
      bfsCost (fun q => some (d.state q).transitions) work (d.states.length + 1) [d.initialState] [d.initialState]) ∧
    (∀ F N : List Nat, (List.range d.states.length).filter (fun i => (d.state i).accepting) = F →
      (List.range d.states.length).filter (fun i => !(d.state i).accepting) = N → F ≠ [] → N ≠ [] →
      d.hopcroftCost (2 * d.states.length + 1 + j) [F, N] [F, N] = d.hopcroftCost (2 * d.states.length + 1) [F, N] [F, N]) := by
  refine ⟨fun ok test work => exploreCost_more j _ _ _ [] ?_, fun work => bfsCost_more j _ _ _ ?_, fun F N hF hN hFe hNe => ?_⟩
  · rcases Dfa.explore_pair hd ho h ok with ⟨he, _⟩ | ⟨_, _, he, _⟩ <;> rw [he] <;> simp
  · obtain ⟨r, h1, _⟩ := Dfa.reachableStateIdx_spec hd
    rw [Dfa.reachableStateIdx] at h1
    rw [h1]; simp
  · obtain ⟨P, h1, _⟩ := Dfa.classes_spec hd
    rw [Dfa.stateEquivalenceClassesIdx, hF, hN] at h1
    rw [if_neg hFe, if_neg hNe] at h1
    exact Dfa.hopcroftCost_more j _ _ _ (by rw [h1]; simp)

example : oddA.WF ∧ endsB.WF ∧ SameElems oddA.alphabet endsB.alphabet := ⟨oddA_wf, endsB_wf, (alphabetEqual_iff oddA_wf.alphabet_nodup endsB_wf.alphabet_nodup).1 (by decide)⟩

private theorem ring_state {n i : Nat} (h : i < n) : (Dfa.ring n).states[i]? =
    some { name := List.replicate (i + 1) 'q', initial := i == 0, accepting := true, transitions := [(i + 1) % n] } := by
  simp [Dfa.ring, h]

private theorem ring_wf {n : Nat} (h : 0 < n) : (Dfa.ring n).WF where
  alphabet_nodup := by simp [Dfa.ring]
  names_nodup := by
    simp only [Dfa.ring, List.map_map]
    refine List.Nodup.map_on (fun x _ y _ hxy => ?_) List.nodup_range
    have := congrArg List.length hxy
    simpa using this
  row_len := by
    intro s hs
    obtain ⟨i, _, rfl⟩ := List.mem_map.1 hs
    rfl
  targets := by
    intro s hs t ht
    obtain ⟨i, _, rfl⟩ := List.mem_map.1 hs
    simp only [List.mem_singleton] at ht
    subst ht
    simpa [Dfa.ring] using Nat.mod_lt _ h
  init_lt := by simpa [Dfa.ring] using h
  init_flag := by
    intro i s hs
    have hi : i < n := by simpa [Dfa.ring] using lt_of_getElem? hs
    rw [ring_state hi] at hs
    cases hs
    simp [Dfa.ring]

private theorem ring_run {n : Nat} (h : 0 < n) : ∀ i, (Dfa.ring n).runE 0 (List.replicate i ['a']) = some (i % n)
  | 0 => by simp [Dfa.runE, Nat.zero_mod]
  | i + 1 => by
    rw [List.replicate_succ', Dfa.runE_append, ring_run h i]
    have hs := Dfa.state_of_getElem? (ring_state (Nat.mod_lt i h))
    have hr : revGet (Dfa.ring n).alphabet ['a'] = some 0 := show revGet [['a']] ['a'] = some 0 by decide
    simp only [Option.bind_some, Dfa.runE, Dfa.nxt]
    rw [hs, hr]
    simp [Nat.add_mod]

private theorem ring_lang {n : Nat} (h : 0 < n) (w : Word) : (Dfa.ring n).Lang w ↔ Over [['a']] w := by
  rw [Dfa.lang_iff (ring_wf h)]
  constructor
  · rintro ⟨q, h1, _⟩
    exact Dfa.over_of_runE h1
  · intro hw
    obtain ⟨q, hq⟩ := Dfa.runE_exists (d := Dfa.ring n) (Dfa.ring n).initialState hw
    refine ⟨q, hq, ?_⟩
    have := Dfa.runE_lt (ring_wf h) (ring_wf h).init_lt hq
    rw [Dfa.state_of_getElem? (ring_state (by simpa [Dfa.ring] using this))]

/-- **C92** Quadratically many steps are needed: for all `n`, there are equivalent DFAs with `n + 1` and `n + 2` states over a one-letter alphabet for
which `equivalent_to` does more than `(n + 1) * (n + 2)` steps, although both have minimal forms with one state. -/
theorem C92_equivalent_quadratic (n : Nat) :
    (Dfa.ring (n + 1)).WF ∧ (Dfa.ring (n + 2)).WF ∧ (Dfa.ring (n + 1)).states.length = n + 1 ∧ (Dfa.ring (n + 2)).states.length = n + 2 ∧
    Dfa.equivalentTo (Dfa.ring (n + 1)) (Dfa.ring (n + 2)) = some true ∧
    (∀ m ∈ [n + 1, n + 2], ∃ e : Dfa, e.WF ∧ e.states.length = 1 ∧ (Dfa.ring m).equivalentTo e = some true) ∧
    (n + 1) * (n + 2) < (Dfa.ring (n + 1)).equivalentCost (Dfa.ring (n + 2)) := by
  have w1 := ring_wf (show 0 < n + 1 by omega)
  have w2 := ring_wf (show 0 < n + 2 by omega)
  have hs : SameElems (Dfa.ring (n + 1)).alphabet (Dfa.ring (n + 2)).alphabet := fun _ => Iff.rfl
  have ht : Dfa.equivalentTo (Dfa.ring (n + 1)) (Dfa.ring (n + 2)) = some true :=
    (C11_dfa_equivalent_to _ _ w1 w2).2.2 ⟨hs, fun w => by rw [ring_lang (by omega), ring_lang (by omega)]⟩
  have hone : ∀ m, 0 < m → ∃ e : Dfa, e.WF ∧ e.states.length = 1 ∧ (Dfa.ring m).equivalentTo e = some true := fun m hm =>
    ⟨Dfa.ring 1, ring_wf Nat.one_pos, by simp [Dfa.ring], (C11_dfa_equivalent_to _ _ (ring_wf hm) (ring_wf Nat.one_pos)).2.2
      ⟨fun _ => Iff.rfl, fun w => by rw [ring_lang hm, ring_lang Nat.one_pos]⟩⟩
  refine ⟨w1, w2, by simp [Dfa.ring], by simp [Dfa.ring], ht, ?_, ?_⟩
  · intro m hm
    apply hone
    simp only [List.mem_cons, List.not_mem_nil, or_false] at hm
    omega
  have ha := (alphabetEqual_iff w1.alphabet_nodup w2.alphabet_nodup).2 hs
  rcases Dfa.explore_pair w1 w2 hs (fun p => p.1.isAccepting == p.2.isAccepting) with ⟨he, _⟩ | ⟨out, seen, he, hE⟩
  · rw [Dfa.equivalentTo, ha] at ht
    simp only [Bool.not_true, Bool.false_eq_true, if_false] at ht
    rw [he] at ht
    simp at ht
  · have hc := exploreCost_eq (test := fun _ => 1) (work := fun _ => Dfa.pairWork (Dfa.ring (n + 1)) (Dfa.ring (n + 2))) _ _ _ _ _ _ he
    simp only [List.map_nil, List.sum_nil, Dfa.sum_const, Nat.add_zero] at hc
    have hlen : (n + 1) * (n + 2) ≤ out.length := by
      have h1 : ((List.range ((n + 1) * (n + 2))).map (fun i => (i % (n + 1), i % (n + 2)))).Nodup := by
        refine List.Nodup.map_on (fun x hx y hy hxy => ?_) List.nodup_range
        rw [List.mem_range] at hx hy
        rw [Prod.mk.injEq] at hxy
        have hco : Nat.Coprime (n + 1) (n + 2) := by
          rw [show n + 2 = n + 1 + 1 by omega, Nat.coprime_self_add_right]; simp
        have : x ≡ y [MOD (n + 1) * (n + 2)] := (Nat.modEq_and_modEq_iff_modEq_mul hco).1 ⟨hxy.1, hxy.2⟩
        rw [Nat.ModEq, Nat.mod_eq_of_lt hx, Nat.mod_eq_of_lt hy] at this
        exact this
      have h2 := nodup_subset_length_le (K := seen.map Dfa.pairKey) h1 (by
        intro k hk
        obtain ⟨i, _, rfl⟩ := List.mem_map.1 hk
        refine List.mem_map.2 ⟨Dfa.evp (Dfa.ring (n + 1)) (Dfa.ring (n + 2)) (i % (n + 1)) (i % (n + 2)), ?_, rfl⟩
        rw [hE.mem_iff]
        exact (Dfa.pair_reach hs).2 ⟨List.replicate i ['a'], _, _, ring_run (by omega) i, ring_run (by omega) i, rfl⟩)
      rw [List.length_map, List.length_range, List.length_map, hE.perm.length_eq] at h2
      exact h2
    rw [Dfa.equivalentCost, ha]
    simp only [Bool.not_true, Bool.false_eq_true, if_false]
    rw [hc]
    have : out.length ≤ out.length * (1 + 1 + Dfa.pairWork (Dfa.ring (n + 1)) (Dfa.ring (n + 2))) := Nat.le_mul_of_pos_right _ (by omega)
    omega

/-- For 4 and 5 states. -/
example : Dfa.equivalentTo (Dfa.ring 4) (Dfa.ring 5) = some true ∧ (Dfa.ring 4).equivalentCost (Dfa.ring 5) = 191 := by decide +kernel

end Dandy
