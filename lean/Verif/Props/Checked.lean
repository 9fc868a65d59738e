import Verif.Proofs.CheckedWords
import Verif.Props.DfaEvaluator
import Verif.Props.DfaProduct
import Verif.Props.DfaMinimize
import Verif.Props.NfaEvaluator
import Verif.Props.NfaProduct
import Verif.Props.NfaEps
import Verif.Props.NfaToDfa
import Verif.Props.Words
/-!
# C105: no index out of range, no subtraction below zero, no failing `unwrap`

The theorems are about `Verif.Model.Checked`, in which every `vec[i]`, `-` on `usize`, `unwrap`, `expect` and assertion is a possible panic (`none`).
-/

namespace Dandy
open Samples

/-- The evaluator after a history of calls, with panics. -/
def Checked.dfaHistory (d : Dfa) (cs : List StepCall) : Option DfaEval :=
  cs.foldlM (fun ev c => match c with
    | .step e => (Checked.DfaEval.step ev e).map (·.1)
    | .stepMultiple es => (Checked.DfaEval.stepMultiple ev es).map (·.1)) (DfaEval.new d)

/-- The evaluator after a history of calls, with panics. -/
def Checked.nfaHistory (n : Nfa) (cs : List StepCall) : Option NfaEval := do
  cs.foldlM (fun ev c => match c with
    | .step e => (Checked.NfaEval.step ev e).map (·.1)
    | .stepMultiple es => (Checked.NfaEval.stepMultiple ev es).map (·.1)) (← Checked.NfaEval.new n)

/-- **C105** No history of calls on an evaluator of a DFA panics, and neither do the observers afterwards, which give the answers of C01, C03 and
C06. -/
theorem C105_dfa_evaluator (d : Dfa) (hd : d.WF) (cs : List StepCall) :
    ∃ ev, Checked.dfaHistory d cs = some ev ∧
      (∃ b, Checked.DfaEval.isAccepting ev = some b ∧ (b = true ↔ d.Lang (fedWord cs))) ∧
      (∃ s, Checked.DfaEval.currentState ev = some s ∧ (∀ q, d.Run d.initialState (fedWord cs) q → s = d.states[q]?) ∧
        (s = none ↔ ∃ e ∈ fedWord cs, e ∉ d.alphabet)) ∧
      (∃ l, Checked.DfaEval.stepAll ev = some l ∧ l.length = d.alphabet.length) := by
  have key : Checked.dfaHistory d cs = some (dfaHistory d cs) ∧ ((dfaHistory d cs).Ok ∧ (dfaHistory d cs).dfa = d) := by
    refine Checked.foldlM_some (fun ev : DfaEval => ev.Ok ∧ ev.dfa = d) ?_ ⟨Checked.DfaEval.new_ok hd, rfl⟩
    rintro ev ⟨hok, hev⟩ c _
    cases c with
    | step e =>
      obtain ⟨h1, h2, h3⟩ := Checked.DfaEval.step_eq hok e
      exact ⟨by dsimp only; rw [h1]; rfl, h2, h3.trans hev⟩
    | stepMultiple es =>
      obtain ⟨h1, h2⟩ := Checked.DfaEval.stepMultiple_eq hok es
      refine ⟨by dsimp only; rw [h1]; rfl, h2, ?_⟩
      exact (Checked.DfaEval.stepMultiple_dfa hok es).trans hev
  obtain ⟨h1, h2, h3⟩ := key
  refine ⟨_, h1, ⟨_, Checked.DfaEval.isAccepting_eq h2, (C03_history_accepting d hd cs).1⟩, ⟨_, Checked.DfaEval.currentState_eq h2, ?_⟩,
    ⟨_, Checked.DfaEval.stepAll_eq h2, ?_⟩⟩
  · obtain ⟨k1, k2⟩ := C03_history_state d hd cs
    exact ⟨fun q hq => (k1 q hq).2, k2⟩
  · rw [(C06_dfa_step_all _).1, h3]

/-- **C105** The same for evaluators of NFAs. -/
theorem C105_nfa_evaluator (n : Nfa) (hn : n.WF) (cs : List StepCall) :
    ∃ ev, Checked.nfaHistory n cs = some ev ∧
      (∃ b, Checked.NfaEval.isAccepting ev = some b ∧ (b = true ↔ n.Lang (fedWord cs))) ∧
      (∀ ord : List Nat → List Nat, (∀ l, (ord l).Perm l) → ∃ l, Checked.NfaEval.currentStates ord ev = some l ∧
        (Over n.alphabet (fedWord cs) → ∀ s, s ∈ l ↔ ∃ q, n.Path n.initialState (fedWord cs) q ∧ n.states[q]? = some s)) ∧
      (∃ l, Checked.NfaEval.stepAll ev = some l ∧ l.length = n.alphabet.length) := by
  obtain ⟨e0, k0⟩ := Checked.NfaEval.new_eq hn
  have key : Checked.nfaHistory n cs = some (nfaHistory n cs) ∧ ((nfaHistory n cs).Ok ∧ (nfaHistory n cs).nfa = n) := by
    unfold Checked.nfaHistory
    rw [e0]
    refine Checked.foldlM_some (fun ev : NfaEval => ev.Ok ∧ ev.nfa = n) ?_ ⟨k0, rfl⟩
    rintro ev ⟨hok, hev⟩ c _
    cases c with
    | step e =>
      obtain ⟨h1, h2, h3⟩ := Checked.NfaEval.step_eq hok e
      exact ⟨by dsimp only; rw [h1]; rfl, h2, h3.trans hev⟩
    | stepMultiple es =>
      obtain ⟨h1, h2⟩ := Checked.NfaEval.stepMultiple_eq hok es
      refine ⟨by dsimp only; rw [h1]; rfl, h2, ?_⟩
      exact (Checked.NfaEval.stepMultiple_nfa hok es).trans hev
  obtain ⟨h1, h2, h3⟩ := key
  refine ⟨_, h1, ⟨_, Checked.NfaEval.isAccepting_eq h2, (C04_nfa_history_accepting n hn cs).1⟩, ?_, ⟨_, Checked.NfaEval.stepAll_eq h2, ?_⟩⟩
  · intro ord hord
    refine ⟨_, Checked.NfaEval.currentStates_eq hord h2, ?_⟩
    intro ho s
    obtain ⟨k1, k2⟩ := C04_nfa_history_states n hn cs ho
    have k3 := (k2 ord hord).1
    have : s ∈ (nfaHistory n cs).currentStates ord ↔ some s ∈ ((nfaHistory n cs).currentStates ord).map some := by simp
    rw [this, k3]
    simp only [List.mem_map, (hord _).mem_iff, k1]
  · rw [(C06_nfa_step_all _).1, h3]

/-- **C105** The operations on valid DFAs do not panic: `accepts` (of words and of texts), products, equivalence, reachable states, classes of
equivalent states and minimization give the answers of C01, C08, C11, C12, C14, C15 and C16. -/
theorem C105_dfa_operations (d o : Dfa) (hd : d.WF) (ho : o.WF) (w : Word) (seg : Str → List Str) (s : Str)
    (ordP : List (Nat × Nat) → List (Nat × Nat)) (hP : ∀ l, (ordP l).Perm l) (comb : DfaState → DfaState → Bool)
    (ordU ord ordKeys : List Nat → List Nat) (hU : ∀ l, (ordU l).Perm l) (hord : ∀ l, (ord l).Perm l) (hK : ∀ l, (ordKeys l).Perm l) :
    (∃ b, Checked.Dfa.accepts d w = some b ∧ (b = true ↔ d.Lang w)) ∧
    (∃ b, Checked.Dfa.acceptsGraphemes seg d s = some b ∧ (b = true ↔ d.Lang (seg s))) ∧
    (∃ st, Checked.Dfa.initialState d = some st ∧ st.initial = true) ∧
    (∃ r, Checked.Dfa.product ordP d o comb = some r ∧ (r = none ↔ ¬ SameElems d.alphabet o.alphabet) ∧
      ∀ p, r = some p → ∀ w, p.Lang w ↔ ∃ (q1 q2 : Nat) (s1 s2 : DfaState), d.Run d.initialState w q1 ∧ o.Run o.initialState w q2 ∧
        d.states[q1]? = some s1 ∧ o.states[q2]? = some s2 ∧ comb s1 s2 = true) ∧
    (∃ b, Checked.Dfa.equivalentTo d o = some b ∧ (b = true ↔ SameElems d.alphabet o.alphabet ∧ ∀ w, d.Lang w ↔ o.Lang w)) ∧
    (∃ r, Checked.Dfa.reachableStateIdx d = some r ∧ ∀ q, q ∈ r ↔ ∃ w, d.Run d.initialState w q) ∧
    (∃ l, Checked.Dfa.reachableStates ord d = some l ∧ ∀ s, s ∈ l ↔ ∃ q : Nat, d.states[q]? = some s ∧ ∃ w, d.Run d.initialState w q) ∧
    (∃ l, Checked.Dfa.unreachableStates ord d = some l ∧ ∀ s, s ∈ l ↔ ∃ q : Nat, d.states[q]? = some s ∧ ¬ ∃ w, d.Run d.initialState w q) ∧
    (∃ b, Checked.Dfa.hasReachableAcceptingState d = some b ∧ (b = true ↔ ∃ w, d.Lang w)) ∧
    (∃ P, Checked.Dfa.stateEquivalenceClasses ord d = some P ∧ P.flatten.Perm d.states) ∧
    (∃ m, Checked.Dfa.removeUnreachableStates ordU d = some m ∧ ∀ w, m.Lang w ↔ d.Lang w) ∧
    (∃ m, Checked.Dfa.mergeNondistinguishableStates ord ordKeys d = some m ∧ ∀ w, m.Lang w ↔ d.Lang w) ∧
    ∃ m, Checked.Dfa.minimize ordU ord ordKeys d = some m ∧ (∀ w, m.Lang w ↔ d.Lang w) ∧
      ∀ o : Dfa, o.WF → SameElems o.alphabet d.alphabet → (∀ w, o.Lang w ↔ d.Lang w) → m.states.length ≤ o.states.length := by
  obtain ⟨⟨r, hr, _, hr3⟩, ⟨u, hu, _, hu3⟩, ⟨b, hb, hb2⟩⟩ := C12_dfa_reachability d hd
  have hlt : ∀ q w, d.Run d.initialState w q → q < d.states.length := fun q w h => Dfa.runE_lt hd hd.init_lt ((Dfa.run_iff hd hd.init_lt).1 h)
  refine ⟨⟨_, Checked.Dfa.accepts_eq hd w, C01_dfa_accepts_iff d hd w⟩, ⟨_, Checked.Dfa.accepts_eq hd (seg s), C01_dfa_accepts_iff d hd _⟩, ?_, ?_, ?_, ?_, ?_, ?_, ?_, ?_,
    ?_, ?_, ?_⟩
  · exact ⟨_, Dfa.getElem?_state hd.init_lt, (hd.init_flag _ _ (Dfa.getElem?_state hd.init_lt)).2 rfl⟩
  · obtain ⟨⟨r, h1⟩, h2⟩ := C08_product_none_iff ordP hP d o hd ho comb
    refine ⟨r, (Checked.Dfa.product_eq hP hd ho comb).trans h1, ?_, ?_⟩
    · rw [← h2, h1]
      simp
    · rintro p rfl w
      exact (C08_product_lang ordP hP d o p hd ho comb h1 w).2
  · obtain ⟨⟨b, h1⟩, h2⟩ := C11_dfa_equivalent_to d o hd ho
    refine ⟨b, (Checked.Dfa.equivalent_eq hd ho).trans h1, ?_⟩
    rw [← h2, h1]
    simp
  · exact ⟨r, (Checked.Dfa.reachable_eq hd).trans hr, hr3⟩
  · refine ⟨(ord r).map d.state, ?_, ?_⟩
    · unfold Checked.Dfa.reachableStates
      rw [Checked.Dfa.reachable_eq hd, hr]
      exact Checked.Dfa.states_eq (fun i hi => by
        obtain ⟨w, hw⟩ := (hr3 i).1 ((hord _).mem_iff.1 hi)
        exact hlt i w hw)
    · intro s
      rw [List.mem_map]
      constructor
      · rintro ⟨q, hq, rfl⟩
        have h := (hr3 q).1 ((hord _).mem_iff.1 hq)
        obtain ⟨w, hw⟩ := h
        exact ⟨q, Dfa.getElem?_state (hlt q w hw), w, hw⟩
      · rintro ⟨q, h1, h2⟩
        refine ⟨q, (hord _).mem_iff.2 ((hr3 q).2 h2), ?_⟩
        obtain ⟨w, hw⟩ := h2
        rw [Dfa.getElem?_state (hlt q w hw)] at h1
        exact Option.some.inj h1
  · refine ⟨(ord u).map d.state, ?_, ?_⟩
    · unfold Checked.Dfa.unreachableStates
      rw [Checked.Dfa.unreachable_eq hd, hu]
      exact Checked.Dfa.states_eq (fun i hi => ((hu3 i).1 ((hord _).mem_iff.1 hi)).1)
    · intro s
      rw [List.mem_map]
      constructor
      · rintro ⟨q, hq, rfl⟩
        have h := (hu3 q).1 ((hord _).mem_iff.1 hq)
        exact ⟨q, Dfa.getElem?_state h.1, h.2⟩
      · rintro ⟨q, h1, h2⟩
        have hl : q < d.states.length := (List.getElem?_eq_some_iff.1 h1).1
        refine ⟨q, (hord _).mem_iff.2 ((hu3 q).2 ⟨hl, h2⟩), ?_⟩
        rw [Dfa.getElem?_state hl] at h1
        exact Option.some.inj h1
  · refine ⟨b, ?_, hb2⟩
    rw [← hb]
    unfold Checked.Dfa.hasReachableAcceptingState Dfa.hasReachableAcceptingState
    rw [Checked.Dfa.reachable_eq hd, hr]
    simp only [Option.bind_eq_bind, Option.bind_some, Option.map_some]
    rw [mapM_some (g := fun i => (d.state i).accepting) (fun i hi => by
      obtain ⟨w, hw⟩ := (hr3 i).1 hi
      rw [Dfa.getElem?_state (hlt i w hw)]
      rfl)]
    simp only [Option.bind_some, List.any_map]
    rfl
  · obtain ⟨P, h1, h2, h3, h4⟩ := C14_equivalence_classes d hd
    have hPl : ∀ B ∈ P, ∀ q ∈ B, q < d.states.length := fun B hB q hq => List.mem_range.1 (h3.mem_iff.1 (List.mem_flatten.2 ⟨B, hB, hq⟩))
    refine ⟨P.map (fun B => (ord B).map d.state), ?_, ?_⟩
    · unfold Checked.Dfa.stateEquivalenceClasses
      rw [Checked.Dfa.classes_eq hd, h1]
      exact mapM_some (fun B hB => Checked.Dfa.states_eq (fun i hi => hPl B hB i ((hord B).mem_iff.1 hi)))
    · have e : ∀ P : List (List Nat), (P.map (fun B => (ord B).map d.state)).flatten.Perm (P.flatten.map d.state) := by
        intro P
        induction P with
        | nil => exact .refl _
        | cons B P ih =>
          rw [List.map_cons, List.flatten_cons, List.flatten_cons, List.map_append]
          exact ((hord B).map _).append ih
      refine (e P).trans ?_
      have e2 : (List.range d.states.length).map d.state = d.states := by
        apply List.ext_getElem?
        intro i
        by_cases hi : i < d.states.length
        · rw [Dfa.getElem?_state hi]
          simp [hi]
        · simp [hi]
      have := h3.map d.state
      rw [e2] at this
      exact this
  · obtain ⟨m, h1, _, _, h2, _⟩ := C13_remove_unreachable ordU hU d hd
    exact ⟨m, (Checked.Dfa.removeUnreachable_eq hU hd).trans h1, h2⟩
  · obtain ⟨m, P, h1, _, _, h2, _⟩ := C15_merge ord ordKeys hord hK d hd
    exact ⟨m, (Checked.Dfa.merge_eq hord hK hd).trans h1, h2⟩
  · obtain ⟨m, h1, _, _, h2, h3⟩ := C16_minimize ordU ord ordKeys hU hord hK d hd
    exact ⟨m, (Checked.Dfa.minimize_eq hU hord hK hd).trans h1, h2, h3⟩

/-- **C105** The operations on valid NFAs do not panic: `accepts`, `closure`, reachable states, products, union, removal of epsilon moves and
of unreachable states, conversion to a DFA and equivalence give the answers of C02, C05, C19–C23, C25, C27 and C28. -/
theorem C105_nfa_operations (n o : Nfa) (hn : n.WF) (ho : o.WF) (w : Word) (seg : Str → List Str) (s : Str)
    (ordP : List Nfa.OPair → List Nfa.OPair) (hP : ∀ l, (ordP l).Perm l) (comb : Option NfaState → Option NfaState → Bool)
    (ordU ord ordDead : List Nat → List Nat) (ordT : Nat → Nat → List Nat → List Nat) (hU : ∀ l, (ordU l).Perm l) (hord : ∀ l, (ord l).Perm l)
    (hD : ∀ l, (ordDead l).Perm l) (hT : ∀ s c l, (ordT s c l).Perm l) :
    (∃ b, Checked.Nfa.accepts n w = some b ∧ (b = true ↔ n.Lang w)) ∧
    (∃ b, Checked.Nfa.acceptsGraphemes seg n s = some b ∧ (b = true ↔ n.Lang (seg s))) ∧
    (∃ st, Checked.Nfa.initialState n = some st ∧ st.initial = true) ∧
    (∀ q, ∃ r, Checked.Nfa.closure n q = some r ∧ (r = none ↔ n.states.length ≤ q) ∧
      ∀ l, r = some l → ∀ x, x ∈ l ↔ n.Path q [] x) ∧
    (∃ r, Checked.Nfa.product ordP n o comb = some r ∧ (r = none ↔ ¬ SameElems n.alphabet o.alphabet) ∧
      ∀ p, r = some p → ∀ w, p.Lang w ↔ ∃ s1 s2, n.Outcome w s1 ∧ o.Outcome w s2 ∧ (s1 ≠ none ∨ s2 ≠ none) ∧ comb s1 s2 = true) ∧
    (∃ r, Checked.Nfa.union n o = some r ∧ (¬ SameElems n.alphabet o.alphabet → r = .error (n, o)) ∧
      (SameElems n.alphabet o.alphabet → ∃ u, r = .ok u ∧ ∀ w, u.Lang w ↔ n.Lang w ∨ o.Lang w)) ∧
    (∃ b, Checked.Nfa.equivalentTo n o = some b ∧ (b = true ↔ SameElems n.alphabet o.alphabet ∧ ∀ w, n.Lang w ↔ o.Lang w)) ∧
    (∃ r, Checked.Nfa.reachableStateIdx n = some r ∧ ∀ q, q ∈ r ↔ ∃ w, n.Path n.initialState w q) ∧
    (∃ l, Checked.Nfa.reachableStates ord n = some l ∧ ∀ s, s ∈ l ↔ ∃ q : Nat, n.states[q]? = some s ∧ ∃ w, n.Path n.initialState w q) ∧
    (∃ l, Checked.Nfa.unreachableStates ord n = some l ∧ ∀ s, s ∈ l ↔ ∃ q : Nat, n.states[q]? = some s ∧ ¬ ∃ w, n.Path n.initialState w q) ∧
    (∃ b, Checked.Nfa.hasReachableAcceptingState n = some b ∧ (b = true ↔ ∃ w, n.Lang w)) ∧
    (∃ m, Checked.Nfa.removeUnreachableStates ordU n = some m ∧ ∀ w, m.Lang w ↔ n.Lang w) ∧
    (∃ m, Checked.Nfa.removeEpsilonMoves ordT ordDead n = some m ∧ (∀ s ∈ m.states, s.epsilonTransitions = []) ∧ ∀ w, m.Lang w ↔ n.Lang w) ∧
    (∃ m, Checked.Nfa.optimize ordU ordT ordDead n = some m ∧ ∀ w, m.Lang w ↔ n.Lang w) ∧
    ∃ d, Checked.Nfa.toDfa n = some d ∧ d.WF ∧ ∀ w, d.Lang w ↔ n.Lang w := by
  obtain ⟨⟨r, hr, _, hr3⟩, _, ⟨b, hb, hb2⟩⟩ := C27_nfa_reachability n hn
  obtain ⟨⟨l1, k1, _, k2⟩, ⟨l2, k3, _, k4⟩⟩ := C27_nfa_reachable_states ord hord n hn
  refine ⟨⟨_, Checked.Nfa.accepts_eq hn w, C02_nfa_accepts_iff n hn w⟩, ⟨_, Checked.Nfa.accepts_eq hn (seg s), C02_nfa_accepts_iff n hn _⟩,
    ⟨_, Nfa.getElem?_state hn.init_lt, (hn.init_flag _ _ (Nfa.getElem?_state hn.init_lt)).2 rfl⟩, ?_, ?_, ?_, ?_,
    ⟨r, (Checked.Nfa.reachable_eq hn).trans hr, hr3⟩, ⟨l1, (Checked.Nfa.reachableStates_eq hord hn).trans k1, k2⟩,
    ⟨l2, (Checked.Nfa.unreachableStates_eq hord hn).trans k3, k4⟩, ⟨b, (Checked.Nfa.hasReachable_eq hn).trans hb, hb2⟩, ?_, ?_, ?_, ?_⟩
  · intro q
    refine ⟨_, Checked.Nfa.closure_eq hn q, ?_⟩
    by_cases hq : q < n.states.length
    · obtain ⟨c, h1, _, h3⟩ := Nfa.closure_spec hn hq
      rw [h1]
      refine ⟨by simpa using hq, ?_⟩
      rintro l e x
      cases e
      rw [h3, Nfa.path_nil_iff]
    · have : n.closure q = none := by rw [Nfa.closure, if_pos (by omega)]
      rw [this]
      exact ⟨iff_of_true rfl (by omega), nofun⟩
  · obtain ⟨⟨r, h1⟩, h2⟩ := C23_product_none_iff ordP hP n o hn ho comb
    refine ⟨r, (Checked.Nfa.product_eq hP hn ho comb).trans h1, ?_, ?_⟩
    · rw [← h2, h1]
      simp
    · rintro p rfl w
      exact C23_product_lang ordP hP n o p hn ho comb h1 w
  · obtain ⟨h1, h2⟩ := C21_union_err n o hn ho
    by_cases hs : SameElems n.alphabet o.alphabet
    · obtain ⟨u, h3⟩ := h2 hs
      exact ⟨_, (Checked.Nfa.union_eq hn ho).trans h3, fun h => absurd hs h, fun _ => ⟨u, rfl, (C21_union_lang n o u hn ho h3).2.2.1⟩⟩
    · exact ⟨_, (Checked.Nfa.union_eq hn ho).trans (h1 hs), fun _ => rfl, fun h => absurd h hs⟩
  · obtain ⟨b, h1, h2⟩ := C20_nfa_equivalent_to n o hn ho
    exact ⟨b, (Checked.Nfa.equivalent_eq hn ho).trans h1, h2⟩
  · obtain ⟨m, h1, _, _, h2, _⟩ := C27_nfa_remove_unreachable ordU hU n hn
    exact ⟨m, (Checked.Nfa.removeUnreachable_eq hU hn).trans h1, h2⟩
  · obtain ⟨m, h1, _, _, h2, _, h3, _⟩ := C25_remove_epsilon_moves ordT hT ordDead hD n hn
    exact ⟨m, (Checked.Nfa.removeEpsilonMoves_eq hD hn).trans h1, h2, h3⟩
  · obtain ⟨m, h1, _, _, _, h3, _⟩ := C28_optimize ordU hU ordT hT ordDead hD n hn
    exact ⟨m, (Checked.Nfa.optimize_eq hU hD hn).trans h1, h3⟩
  · obtain ⟨d, h1, h2, _, h3, _⟩ := C19_to_dfa n hn
    exact ⟨d, (Checked.Nfa.toDfa_eq hn).trans h1, h2, h3⟩

/-- **C105** The word iterators panic only by their `unimplemented!` (epsilon moves), in whatever number of calls; otherwise they give the same as
the model of C29–C32: accepted words in increasing order without gaps. -/
theorem C105_words (n : Nfa) (hn : n.WF) (k : Nat) :
    (Checked.Nfa.wordComponentIndices n k = n.wordComponentIndices k ∧ Checked.Nfa.wordComponents n k = n.wordComponents k ∧
      Checked.Nfa.words n k = n.words k) ∧
    (Checked.Nfa.wordComponentIndices n k = none ↔ ∃ s ∈ n.states, s.epsilonTransitions ≠ []) ∧
    (Checked.Nfa.wordComponents n k = none ↔ ∃ s ∈ n.states, s.epsilonTransitions ≠ []) ∧
    (Checked.Nfa.words n k = none ↔ ∃ s ∈ n.states, s.epsilonTransitions ≠ []) ∧
    ∀ rs, Checked.Nfa.wordComponents n k = some rs → rs.length = k ∧ ∀ w, some w ∈ rs → n.Lang w := by
  have e1 : Checked.Nfa.wordComponentIndices n k = n.wordComponentIndices k := Checked.WordIter.words_eq hn (fun it h => Checked.WordIter.next_eq h) k
  have e2 : Checked.Nfa.wordComponents n k = n.wordComponents k := Checked.WordIter.words_eq hn (fun it h => Checked.WordIter.nextComponents_eq h) k
  have e3 : Checked.Nfa.words n k = n.words k := Checked.WordIter.words_eq hn (fun it h => Checked.WordIter.nextString_eq h) k
  rw [e1, e2, e3]
  have hnone := C32_construction_panics_iff n
  by_cases he : ∃ s ∈ n.states, s.epsilonTransitions ≠ []
  · have h0 := hnone.2 he
    have f1 : n.wordComponentIndices k = none := by unfold Nfa.wordComponentIndices; rw [h0]; rfl
    have f2 : n.wordComponents k = none := by unfold Nfa.wordComponents; rw [h0]; rfl
    have f3 : n.words k = none := by unfold Nfa.words; rw [h0]; rfl
    rw [f1, f2, f3]
    exact ⟨⟨rfl, rfl, rfl⟩, iff_of_true rfl he, iff_of_true rfl he, iff_of_true rfl he, nofun⟩
  · have he' : ∀ s ∈ n.states, s.epsilonTransitions = [] := fun s hs => by
      by_contra hc
      exact he ⟨s, hs, hc⟩
    obtain ⟨rs, h1, h2, _, h3, h4⟩ := C32_iterators_agree n hn he' k
    rw [h1, h3, h4]
    refine ⟨⟨rfl, rfl, rfl⟩, iff_of_false nofun he, iff_of_false nofun he, iff_of_false nofun he, ?_⟩
    rintro rs' h
    have h5 := h3.trans h
    cases h
    exact ⟨by rw [List.length_map, h2], fun w hw => (C29_words_sound n hn k _ h3 w hw).1⟩

example : oddA.WF ∧ endsB.WF ∧
    (Checked.dfaHistory oddA [.step (s 'a'), .stepMultiple [s 'b', s 'a', s 'a'], .step (s 'z')]).isSome = true ∧
    Checked.Dfa.accepts oddA [s 'a', s 'b', s 'a', s 'a'] = some true ∧
    (Checked.Dfa.product id oddA endsB (fun a b => a.accepting && b.accepting)).isSome = true ∧
    Checked.Dfa.equivalentTo oddA endsB = some false ∧
    (Checked.Dfa.minimize List.reverse id id redundant).map (·.states.length) = some 3 :=
  ⟨oddA_wf, endsB_wf, by decide, by decide, by decide, by decide, by decide +kernel⟩

example : epsNfa.WF ∧ evenA.WF ∧ Checked.Nfa.accepts epsNfa [s 'a', s 'b'] = some true ∧
    (Checked.Nfa.union epsNfa evenA).isSome = true ∧ (Checked.Nfa.toDfa epsNfa).map (·.states.length) = some 3 ∧
    (Checked.Nfa.removeEpsilonMoves (fun _ _ l => l) List.reverse epsNfa).isSome = true ∧
    Checked.Nfa.words epsNfa 1 = none ∧
    Checked.Nfa.words evenA 3 = some [some [s 'a', s 'b'].flatten, some [s 'a', s 'a'].flatten, some [s 'a', s 'b', s 'b', s 'b'].flatten] :=
  ⟨epsNfa_wf, evenA_wf, by decide, by decide, by decide, by decide +kernel, by decide, by decide +kernel⟩

/-- On automata that are not valid (which the library never makes) the same functions do panic: the checks are there. -/
example : Checked.Dfa.accepts { endsB with initialState := 2 } [s 'b'] = none ∧
    Checked.Dfa.accepts { oddA with states := [⟨s 'e', true, false, [1]⟩, ⟨s 'o', false, true, [0, 1]⟩] } [s 'b'] = none ∧
    Checked.Nfa.accepts { evenA with states := [⟨s '1', true, false, [], [[1], [7]]⟩] , initialState := 0 } [s 'a'] = none ∧
    Checked.Dfa.removeStates oddA [0] = none ∧ Checked.Dfa.removeStates { oddA with initialState := 1 } [0, 0, 0] = none := by
  decide

/-! ## Instances of the theorems of this file -/

example := C105_dfa_evaluator Samples.redundant Samples.redundant_wf [.step (Samples.s 'b'), .stepMultiple [Samples.s 'a', Samples.s 'b']]
example := C105_nfa_evaluator Samples.epsNfa Samples.epsNfa_wf [.step (Samples.s 'b'), .stepMultiple [Samples.s 'a', Samples.s 'b']]
example := C105_dfa_operations Samples.oddA Samples.endsB Samples.oddA_wf Samples.endsB_wf [c!"a", c!"b"] (fun t => t.map (fun c => [c]))
  c!"ab" List.reverse (fun l => List.reverse_perm l) (fun p q => p.accepting && !q.accepting) List.reverse List.reverse List.reverse (fun l
  => List.reverse_perm l) (fun l => List.reverse_perm l) (fun l => List.reverse_perm l)
example := C105_nfa_operations Samples.epsNfa Samples.evenA Samples.epsNfa_wf Samples.evenA_wf [c!"a", c!"b"] (fun t => t.map (fun c =>
  [c])) c!"ab" List.reverse (fun l => List.reverse_perm l) (fun p q => p.isSome && q.isNone) List.reverse List.reverse List.reverse (fun _
  _ l => l.reverse) (fun l => List.reverse_perm l) (fun l => List.reverse_perm l) (fun l => List.reverse_perm l) (fun _ _ l =>
  List.reverse_perm l)

end Dandy
