import Verif.Proofs.CheckedDfa
import Verif.Proofs.NfaEps
import Verif.Proofs.NfaProduct
/-!
# The NFA code has no panics (for C105)
-/

namespace Dandy
namespace Checked

theorem eps_eq {n : Nfa} {l : List Nat} (hl : ∀ q ∈ l, q < n.states.length) :
    l.mapM (fun s => do return (← n.states[s]?).epsilonTransitions) = some (l.map (fun s => (n.state s).epsilonTransitions)) :=
  mapM_some (fun q hq => by rw [Dandy.Nfa.getElem?_state (hl q hq)]; rfl)

theorem row_eq {n : Nfa} (hn : n.WF) {l : List Nat} (hl : ∀ q ∈ l, q < n.states.length) {i : Nat} (hi : i < n.alphabet.length) :
    l.mapM (fun s => do (← n.states[s]?).transitions[i]?) = some (l.map (fun s => (n.state s).transitions.getD i [])) :=
  mapM_some (fun q hq => by
    rw [Dandy.Nfa.getElem?_state (hl q hq)]
    exact getElem?_of_lt [] (by rw [hn.row_len _ (Dandy.Nfa.state_mem (hl q hq))]; exact hi))

theorem closureRound_eq {n : Nfa} {cur : List Nat} (hl : ∀ q ∈ cur, q < n.states.length) :
    closureRound n cur = some (n.closureRound cur) := by
  unfold closureRound Dandy.Nfa.closureRound
  rw [eps_eq hl]
  rfl

theorem includeClosure_eq {n : Nfa} (hn : n.WF) (k : Nat) {cur : List Nat} (hl : ∀ q ∈ cur, q < n.states.length) :
    includeClosure n k cur = some (n.includeClosure k cur) ∧ ∀ q ∈ n.includeClosure k cur, q < n.states.length := by
  induction k generalizing cur with
  | zero => exact ⟨rfl, hl⟩
  | succ k ih =>
    simp only [includeClosure, Dandy.Nfa.includeClosure, closureRound_eq hl, Option.bind_eq_bind, Option.bind_some]
    split
    · exact ⟨rfl, hl⟩
    · refine ih ?_
      intro q hq
      rw [mem_sextend] at hq
      rcases hq with hq | hq
      · exact hl q hq
      · obtain ⟨⟨s, _, h⟩, _⟩ := Dandy.Nfa.mem_closureRound.1 hq
        exact Dandy.Nfa.ep_lt hn h

/-- The evaluator belongs to a valid NFA and is in some of its states. -/
def _root_.Dandy.NfaEval.Ok (ev : Dandy.NfaEval) : Prop := ev.nfa.WF ∧ ∀ q ∈ ev.cur, q < ev.nfa.states.length

namespace NfaEval
open Dandy (NfaEval)

theorem new_eq {n : Dandy.Nfa} (hn : n.WF) : new n = some (Dandy.NfaEval.new n) ∧ (Dandy.NfaEval.new n).Ok := by
  obtain ⟨h1, h2⟩ := includeClosure_eq hn (n.states.length + 1) (cur := [n.initialState])
    (fun q hq => by rw [List.mem_singleton.1 hq]; exact hn.init_lt)
  refine ⟨?_, hn, h2⟩
  unfold new
  rw [h1]
  rfl

theorem currentStates_eq {ord : List Nat → List Nat} (hord : ∀ l, (ord l).Perm l) {ev : NfaEval} (h : ev.Ok) :
    currentStates ord ev = some (ev.currentStates ord) :=
  mapM_some (fun q hq => Dandy.Nfa.getElem?_state (h.2 q ((hord _).mem_iff.1 hq)))

theorem isAccepting_eq {ev : NfaEval} (h : ev.Ok) : isAccepting ev = some ev.isAccepting := by
  unfold isAccepting Dandy.NfaEval.isAccepting
  split
  · rfl
  · rw [currentStates_eq (ord := id) (fun _ => .refl _) h]
    simp only [Option.bind_eq_bind, Option.bind_some, Dandy.NfaEval.currentStates, id, List.any_map]
    rfl

theorem step_eq {ev : NfaEval} (h : ev.Ok) (e : Str) : step ev e = some (ev.step e) ∧ (ev.step e).1.Ok ∧ (ev.step e).1.nfa = ev.nfa := by
  unfold step Dandy.NfaEval.step
  cases hr : revGet ev.nfa.alphabet e with
  | none => exact ⟨rfl, h, rfl⟩
  | some i =>
    have hi := revGet_lt hr
    have hl : ∀ q ∈ sofList (ev.cur.flatMap (fun s => (ev.nfa.state s).transitions.getD i [])), q < ev.nfa.states.length := by
      intro q hq
      rw [mem_sofList, List.mem_flatMap] at hq
      obtain ⟨s, _, hs⟩ := hq
      exact Dandy.Nfa.tr_lt h.1 hs
    obtain ⟨h1, h2⟩ := includeClosure_eq h.1 (ev.nfa.states.length + 1) hl
    refine ⟨?_, ⟨h.1, h2⟩, rfl⟩
    dsimp only
    rw [row_eq h.1 h.2 hi]
    change (includeClosure ev.nfa (ev.nfa.states.length + 1) (sofList (ev.cur.flatMap (fun s => (ev.nfa.state s).transitions.getD i [])))).bind _ = _
    rw [h1]
    rfl

theorem tryForEach_eq {ev : NfaEval} (h : ev.Ok) (es : List Str) :
    tryForEach ev es = some (ev.tryForEach es) ∧ (ev.tryForEach es).1.Ok := by
  induction es generalizing ev with
  | nil => exact ⟨rfl, h⟩
  | cons e es ih =>
    obtain ⟨h1, h2, _⟩ := step_eq h e
    unfold tryForEach Dandy.NfaEval.tryForEach
    rw [h1]
    simp only [Option.bind_eq_bind, Option.bind_some]
    generalize ev.step e = r at h2
    obtain ⟨ev', x⟩ := r
    cases x with
    | none => exact ⟨rfl, h2⟩
    | some _ => exact ih h2

theorem stepMultiple_eq {ev : NfaEval} (h : ev.Ok) (es : List Str) :
    stepMultiple ev es = some (ev.stepMultiple es) ∧ (ev.stepMultiple es).1.Ok := by
  obtain ⟨h1, h2⟩ := tryForEach_eq h es
  unfold stepMultiple Dandy.NfaEval.stepMultiple
  rw [h1]
  simp only [Option.bind_eq_bind, Option.bind_some]
  generalize ev.tryForEach es = r at h2
  obtain ⟨ev', x⟩ := r
  cases x with
  | none => exact ⟨rfl, h2⟩
  | some _ => exact ⟨rfl, h2⟩

theorem stepMultiple_nfa {ev : NfaEval} (h : ev.Ok) (es : List Str) : (ev.stepMultiple es).1.nfa = ev.nfa := by
  have key : (ev.tryForEach es).1.nfa = ev.nfa := by
    induction es generalizing ev with
    | nil => rfl
    | cons e es ih =>
      obtain ⟨_, h2, h3⟩ := step_eq h e
      unfold Dandy.NfaEval.tryForEach
      generalize ev.step e = r at h2 h3
      obtain ⟨ev', x⟩ := r
      cases x with
      | none => exact h3
      | some _ => exact (ih h2).trans h3
  unfold Dandy.NfaEval.stepMultiple
  generalize ev.tryForEach es = r at key
  obtain ⟨ev', x⟩ := r
  cases x <;> exact key

theorem stepAll_eq {ev : NfaEval} (h : ev.Ok) : stepAll ev = some ev.stepAll :=
  mapM_some (fun e _ => by rw [(step_eq h e).1]; rfl)

theorem stepAll_ok {ev : NfaEval} (h : ev.Ok) : ∀ t ∈ ev.stepAll, t.Ok := by
  intro t ht
  obtain ⟨e, _, rfl⟩ := List.mem_map.1 ht
  exact (step_eq h e).2.1

end NfaEval

namespace Nfa
open Dandy (Nfa)

theorem accepts_eq {n : Nfa} (h : n.WF) (w : List Str) : accepts n w = some (n.accepts w) := by
  obtain ⟨h0, hok⟩ := NfaEval.new_eq h
  obtain ⟨h1, h2⟩ := NfaEval.stepMultiple_eq hok w
  unfold accepts
  rw [h0]
  simp only [Option.bind_eq_bind, Option.bind_some, h1]
  exact NfaEval.isAccepting_eq h2

theorem closure_eq {n : Nfa} (h : n.WF) (q : Nat) : closure n q = some (n.closure q) := by
  by_cases hq : q < n.states.length
  · have e : bfs (fun q => do return (← n.states[q]?).epsilonTransitions) (n.states.length + 1) [q] [q] =
        bfs (fun q => some (n.state q).epsilonTransitions) (n.states.length + 1) [q] [q] := by
      refine bfs_congr (n := n.states.length) ?_ ?_ _ _ _ ?_
      · intro q hq
        rw [Dandy.Nfa.getElem?_state hq]
        rfl
      · rintro q hq l e t ht
        cases e
        exact Dandy.Nfa.ep_lt h ht
      · intro q' hq'
        rw [List.mem_singleton.1 hq']
        exact hq
    obtain ⟨r, h1, _⟩ := Dandy.Nfa.closure_spec h hq
    unfold closure
    have h2 := h1
    unfold Dandy.Nfa.closure at h2
    rw [if_neg (by omega)] at h2
    rw [if_neg (by omega), e, h1, h2]
    rfl
  · unfold closure Dandy.Nfa.closure
    rw [if_pos (by omega), if_pos (by omega)]

theorem reachable_eq {n : Nfa} (h : n.WF) : reachableStateIdx n = n.reachableStateIdx := by
  refine bfs_congr (n := n.states.length) ?_ ?_ _ _ _ ?_
  · intro q hq
    obtain ⟨r, h1, _⟩ := Dandy.Nfa.closure_spec h hq
    rw [Dandy.Nfa.getElem?_state hq, closure_eq h q, h1]
    rfl
  · rintro q hq l e t ht
    obtain ⟨r, h1, _, h3⟩ := Dandy.Nfa.closure_spec h hq
    rw [h1] at e
    cases e
    rcases List.mem_append.1 ht with ht | ht
    · obtain ⟨i, hi⟩ := Dandy.Nfa.mem_flatten_tr.1 ht
      exact Dandy.Nfa.tr_lt h hi
    · exact Dandy.Nfa.EpsR.lt h hq ((h3 t).1 ht)
  · intro q hq
    rw [List.mem_singleton.1 hq]
    exact h.init_lt

theorem unreachable_eq {n : Nfa} (h : n.WF) : unreachableStateIdx n = n.unreachableStateIdx := by
  unfold unreachableStateIdx Dandy.Nfa.unreachableStateIdx
  rw [reachable_eq h]
  cases n.reachableStateIdx <;> rfl

theorem states_eq {n : Nfa} {l : List Nat} (hl : ∀ i ∈ l, i < n.states.length) : l.mapM (fun i => n.states[i]?) = some (l.map n.state) :=
  mapM_some (fun i hi => Dandy.Nfa.getElem?_state (hl i hi))

theorem reachableStates_eq {ord : List Nat → List Nat} (hord : ∀ l, (ord l).Perm l) {n : Nfa} (h : n.WF) :
    reachableStates ord n = n.reachableStates ord := by
  obtain ⟨r, h1, _, h3⟩ := Dandy.Nfa.reachableStateIdx_spec h
  unfold reachableStates Dandy.Nfa.reachableStates
  rw [reachable_eq h, h1]
  exact states_eq (fun i hi => Dandy.Nfa.Reach.lt h ((h3 i).1 ((hord _).mem_iff.1 hi)))

theorem unreachableStates_eq {ord : List Nat → List Nat} (hord : ∀ l, (ord l).Perm l) {n : Nfa} (h : n.WF) :
    unreachableStates ord n = n.unreachableStates ord := by
  obtain ⟨r, h1, _, h3⟩ := Dandy.Nfa.unreachableStateIdx_spec h
  unfold unreachableStates Dandy.Nfa.unreachableStates
  rw [unreachable_eq h, h1]
  exact states_eq (fun i hi => ((h3 i).1 ((hord _).mem_iff.1 hi)).1)

theorem accepting_eq {n : Nfa} {l : List Nat} (hl : ∀ i ∈ l, i < n.states.length) :
    l.mapM (fun i => do return (← n.states[i]?).accepting) = some (l.map (fun i => (n.state i).accepting)) :=
  mapM_some (fun i hi => by rw [Dandy.Nfa.getElem?_state (hl i hi)]; rfl)

theorem hasReachable_eq {n : Nfa} (h : n.WF) : hasReachableAcceptingState n = n.hasReachableAcceptingState := by
  obtain ⟨r, h1, _, h3⟩ := Dandy.Nfa.reachableStateIdx_spec h
  unfold hasReachableAcceptingState Dandy.Nfa.hasReachableAcceptingState
  rw [reachable_eq h, h1]
  change Option.bind (r.mapM (fun i => do return (← n.states[i]?).accepting)) _ = _
  rw [accepting_eq (fun i hi => Dandy.Nfa.Reach.lt h ((h3 i).1 hi))]
  simp only [Option.bind_some, List.any_map, Option.map_some]
  rfl

theorem removeStates_eq {n : Nfa} {rm : List Nat} (h : rm.Nodup) : removeStates n rm = n.removeStates rm := by
  unfold removeStates Dandy.Nfa.removeStates binarySearch
  dsimp only
  by_cases hm : n.initialState ∈ rm.insertionSort (· ≤ ·)
  · simp only [if_pos hm]
  · have hle : (rm.insertionSort (· ≤ ·)).countP (· < n.initialState) ≤ n.initialState :=
      Dfa.count_le ((List.perm_insertionSort _ rm).nodup_iff.2 h)
    simp only [if_neg hm, usub, if_pos hle]

theorem removeUnreachable_eq {ord : List Nat → List Nat} (hord : ∀ l, (ord l).Perm l) {n : Nfa} (h : n.WF) :
    removeUnreachableStates ord n = n.removeUnreachableStates ord := by
  obtain ⟨r, h1, h2, _⟩ := Dandy.Nfa.unreachableStateIdx_spec h
  unfold removeUnreachableStates Dandy.Nfa.removeUnreachableStates
  rw [unreachable_eq h, h1]
  exact removeStates_eq ((hord _).nodup_iff.2 (sorted_nodup h2))

theorem clearInitial_eq {l : List NfaState} {i : Nat} (h : i < l.length) :
    clearInitial l i = some (l.modify i (fun s => { s with initial := false })) := by
  unfold clearInitial
  rw [List.getElem?_eq_getElem h]
  simp only [Option.bind_eq_bind, Option.bind_some]
  refine congrArg some ?_
  apply List.ext_getElem?
  intro j
  rw [List.getElem?_set, List.getElem?_modify]
  split
  · rename_i e
    subst e
    simp [h]
  · simp

theorem union_eq {n o : Nfa} (hn : n.WF) (ho : o.WF) : union n o = n.union o := by
  unfold union Dandy.Nfa.union
  split
  · rfl
  · cases Dandy.Nfa.alphabetTranslation o.alphabet n.alphabet with
    | none => rfl
    | some tr =>
      simp only [Option.bind_eq_bind, Option.bind_some]
      generalize ho1 : (if Dandy.Nfa.isIncreasing tr = true then o else _) = o1
      have hl : o1.states.length = o.states.length ∧ o1.initialState = o.initialState := by
        rw [← ho1]
        split
        · exact ⟨rfl, rfl⟩
        · exact ⟨List.length_map .., rfl⟩
      generalize ho2 : o1.remapTransitions _ = o2
      have hl2 : o2.states.length = o.states.length ∧ o2.initialState = o.initialState := by
        rw [← ho2]
        exact ⟨(List.length_map ..).trans hl.1, hl.2⟩
      generalize hst : (if ((n.states ++ o2.states).map (·.name)).dedup.length ≠ (n.states ++ o2.states).length then _ else _ : List NfaState) = st
      have hlen : st.length = n.states.length + o.states.length := by
        rw [← hst]
        split <;> simp [hl2.1]
      have h1 := hn.init_lt
      have h2 := ho.init_lt
      rw [clearInitial_eq (by omega)]
      simp only [Option.bind_some]
      rw [clearInitial_eq (by rw [List.length_modify, hl2.2]; omega)]
      rfl

/-! ### Products -/

/-- The states of the pair exist. -/
def InRange (n o : Nfa) (p : Dandy.Nfa.OPair) : Prop := (∀ q, p.1 = some q → q < n.states.length) ∧ ∀ q, p.2 = some q → q < o.states.length

theorem liveTargets_eq {n : Nfa} (hn : n.WF) {s : Option Nat} (hs : ∀ q, s = some q → q < n.states.length) {i : Nat} (hi : i < n.alphabet.length) :
    liveTargets n s i = some (n.liveTargets s i) := by
  cases s with
  | none => rfl
  | some q =>
    have hq := hs q rfl
    have e : (n.state q).transitions[i]? = some ((n.state q).transitions.getD i []) :=
      getElem?_of_lt [] (by rw [hn.row_len _ (Dandy.Nfa.state_mem hq)]; exact hi)
    simp only [liveTargets, Dandy.Nfa.liveTargets, Dandy.Nfa.getElem?_state hq, Option.bind_eq_bind, Option.bind_some, e]
    rfl

theorem liveTargets_lt {n : Nfa} (hn : n.WF) {s : Option Nat} {i : Nat} {l : List Nat} (h : n.liveTargets s i = some l) : ∀ t ∈ l, t < n.states.length := by
  cases s with
  | none => cases h
  | some q =>
    simp only [Dandy.Nfa.liveTargets] at h
    split at h
    · cases h
    · cases h
      intro t ht
      exact Dandy.Nfa.tr_lt hn ht

theorem pairTargets_eq {n o : Nfa} (hn : n.WF) (ho : o.WF) {p : Dandy.Nfa.OPair} (hp : InRange n o p) {i j : Nat}
    (hi : i < n.alphabet.length) (hj : j < o.alphabet.length) :
    pairTargets n o i j p = some (n.pairTargets o i j p) ∧ ∀ t ∈ n.pairTargets o i j p, InRange n o t := by
  unfold pairTargets Dandy.Nfa.pairTargets
  rw [liveTargets_eq hn hp.1 hi, liveTargets_eq ho hp.2 hj]
  cases h1 : n.liveTargets p.1 i with
  | none =>
    cases h2 : o.liveTargets p.2 j with
    | none => exact ⟨rfl, nofun⟩
    | some l2 =>
      refine ⟨rfl, ?_⟩
      intro t ht
      obtain ⟨x, hx, rfl⟩ := List.mem_map.1 ht
      exact ⟨nofun, fun q hq => by cases hq; exact liveTargets_lt ho h2 _ hx⟩
  | some l1 =>
    cases h2 : o.liveTargets p.2 j with
    | none =>
      refine ⟨rfl, ?_⟩
      intro t ht
      obtain ⟨x, hx, rfl⟩ := List.mem_map.1 ht
      exact ⟨fun q hq => by cases hq; exact liveTargets_lt hn h1 _ hx, nofun⟩
    | some l2 =>
      refine ⟨rfl, ?_⟩
      intro t ht
      obtain ⟨x, hx, hxy⟩ := List.mem_flatMap.1 ht
      obtain ⟨y, hy, rfl⟩ := List.mem_map.1 hxy
      exact ⟨fun q hq => by cases hq; exact liveTargets_lt hn h1 _ hx, fun q hq => by cases hq; exact liveTargets_lt ho h2 _ hy⟩

theorem translation_get {n o : Nfa} {tr : List Nat} (h : Dandy.Nfa.alphabetTranslation n.alphabet o.alphabet = some tr) {i : Nat}
    (hi : i < n.alphabet.length) : tr[i]? = some (tr.getD i 0) ∧ tr.getD i 0 < o.alphabet.length := by
  have h := mapM_some_iff.1 h
  have hl := h.length_eq
  have e := getElem?_of_lt 0 (l := tr) (i := i) (by omega)
  refine ⟨e, ?_⟩
  obtain ⟨x, _, hx⟩ := forall₂_right h _ (List.mem_of_getElem? e)
  exact (List.findIdx?_eq_some_iff_getElem.1 hx).1

theorem pairRow_eq {n o : Nfa} (hn : n.WF) (ho : o.WF) {tr : List Nat} (htr : Dandy.Nfa.alphabetTranslation n.alphabet o.alphabet = some tr)
    {p : Dandy.Nfa.OPair} (hp : InRange n o p) :
    pairRow n o tr p = some (n.pairRow o tr p) ∧ ∀ l ∈ n.pairRow o tr p, ∀ t ∈ l, InRange n o t := by
  constructor
  · refine mapM_some ?_
    intro i hi
    obtain ⟨h1, h2⟩ := translation_get htr (List.mem_range.1 hi)
    rw [h1]
    exact (pairTargets_eq hn ho hp (List.mem_range.1 hi) h2).1
  · intro l hl
    obtain ⟨i, hi, rfl⟩ := List.mem_map.1 hl
    obtain ⟨h1, h2⟩ := translation_get htr (List.mem_range.1 hi)
    exact (pairTargets_eq hn ho hp (List.mem_range.1 hi) h2).2

theorem pairEps_eq {n o : Nfa} (hn : n.WF) (ho : o.WF) {p : Dandy.Nfa.OPair} (hp : InRange n o p) :
    pairEps n o p = some (n.pairEps o p) ∧ ∀ t ∈ n.pairEps o p, InRange n o t := by
  obtain ⟨p1, p2⟩ := p
  constructor
  · unfold pairEps Dandy.Nfa.pairEps
    have e1 : ∀ a, p1 = some a → n.states[a]? = some (n.state a) := fun a ha => Dandy.Nfa.getElem?_state (hp.1 a ha)
    have e2 : ∀ a, p2 = some a → o.states[a]? = some (o.state a) := fun a ha => Dandy.Nfa.getElem?_state (hp.2 a ha)
    cases p1 with
    | none =>
      cases p2 with
      | none => rfl
      | some b => simp [e2 b rfl]
    | some a =>
      cases p2 with
      | none => simp [e1 a rfl]
      | some b => simp [e1 a rfl, e2 b rfl]
  · intro t ht
    rcases List.mem_append.1 ht with ht | ht
    · cases p1 with
      | none => cases ht
      | some a =>
        obtain ⟨x, hx, rfl⟩ := List.mem_map.1 ht
        exact ⟨fun q hq => by cases hq; exact Dandy.Nfa.ep_lt hn hx, hp.2⟩
    · cases p2 with
      | none => cases ht
      | some b =>
        obtain ⟨x, hx, rfl⟩ := List.mem_map.1 ht
        exact ⟨hp.1, fun q hq => by cases hq; exact Dandy.Nfa.ep_lt ho hx⟩

theorem stateOf_eq {n : Nfa} {s : Option Nat} (hs : ∀ q, s = some q → q < n.states.length) : stateOf n s = some (s.map n.state) := by
  cases s with
  | none => rfl
  | some q =>
    simp only [stateOf, Dandy.Nfa.getElem?_state (hs q rfl)]
    rfl

theorem product_eq {ord : List Dandy.Nfa.OPair → List Dandy.Nfa.OPair} (hord : ∀ l, (ord l).Perm l) {n o : Nfa} (hn : n.WF) (ho : o.WF)
    (comb : Option NfaState → Option NfaState → Bool) : product ord n o comb = n.product ord o comb := by
  unfold product Dandy.Nfa.product
  split
  · rfl
  · cases htr : Dandy.Nfa.alphabetTranslation n.alphabet o.alphabet with
    | none => rfl
    | some tr =>
      simp only [Option.bind_eq_bind, Option.bind_some]
      have hinit : ∀ s ∈ [((some n.initialState, some o.initialState) : Dandy.Nfa.OPair)], InRange n o s := by
        intro s hs
        rw [List.mem_singleton.1 hs]
        exact ⟨fun q hq => by cases hq; exact hn.init_lt, fun q hq => by cases hq; exact ho.init_lt⟩
      have hInv : ∀ p : Dandy.Nfa.OPair, InRange n o p → ∀ t ∈ (n.pairRow o tr p).flatten ++ n.pairEps o p, InRange n o t := by
        intro p hp t ht
        rcases List.mem_append.1 ht with ht | ht
        · obtain ⟨l, hl, ht⟩ := List.mem_flatten.1 ht
          exact (pairRow_eq hn ho htr hp).2 l hl t ht
        · exact (pairEps_eq hn ho hp).2 t ht
      rw [explore_eq (succ := fun p => (n.pairRow o tr p).flatten ++ n.pairEps o p) (ok := fun _ => true) (InRange n o)
        (fun p hp => by rw [(pairRow_eq hn ho htr hp).1, (pairEps_eq hn ho hp).1]; rfl) (fun _ _ => rfl) hInv _ _ _ _ hinit]
      generalize hr : Dandy.explore (id : Dandy.Nfa.OPair → Dandy.Nfa.OPair) _ _ _ _ _ _ = r
      rcases r with _ | _ | ⟨out, seen⟩
      · rfl
      · rfl
      · obtain ⟨ho1, ho2⟩ := Dfa.explore_inv _ hInv _ _ _ _ hinit hinit (fun s hs => absurd hs List.not_mem_nil) hr
        have hsd : out.mapM (fun p => (stateOf n p.1).bind fun a => (stateOf o p.2).bind fun b => (pairRow n o tr p).bind fun c =>
            (pairEps n o p).bind fun d => pure (p, comb a b, c, d)) =
          some (out.map (fun p => (p, comb (p.1.map n.state) (p.2.map o.state), n.pairRow o tr p, n.pairEps o p))) := by
          refine mapM_some ?_
          intro p hp
          have h := ho1 p hp
          rw [stateOf_eq h.1, stateOf_eq h.2, (pairRow_eq hn ho htr h).1, (pairEps_eq hn ho h).1]
          rfl
        simp only [Option.bind_some]
        rw [hsd]
        simp only [Option.bind_some]
        rw [genNames_eq (nameOf := fun p : Dandy.Nfa.OPair => Dandy.Dfa.pairName ((p.1.map (fun s => (n.state s).name)).getD Dandy.Nfa.noneName)
          ((p.2.map (fun s => (o.state s).name)).getD Dandy.Nfa.noneName)) (ord seen)]
        · rfl
        · intro k hk
          have h := ho2 k ((hord _).mem_iff.1 hk)
          rw [stateOf_eq h.1, stateOf_eq h.2]
          simp only [Option.bind_some, Option.map_map]
          rfl

/-! ### Removal of epsilon moves -/

theorem deadLoop_sorted {sts : List NfaState} {k : Nat} {D D' : List Nat} (h : D.Pairwise (· < ·)) (hr : Dandy.Nfa.deadLoop sts k D = some D') :
    D'.Pairwise (· < ·) := by
  have pass : ∀ (l : List (NfaState × Nat)) (D : List Nat), D.Pairwise (· < ·) → (Dandy.Nfa.deadPass l D).Pairwise (· < ·) := by
    intro l
    induction l with
    | nil => intro D h; exact h
    | cons p l ih =>
      intro D h
      simp only [Dandy.Nfa.deadPass]
      refine ih _ ?_
      split
      · exact sorted_sins h
      · exact h
  induction k generalizing D with
  | zero => cases hr
  | succ k ih =>
    simp only [Dandy.Nfa.deadLoop] at hr
    split at hr
    · cases hr
      exact h
    · exact ih (pass _ _ h) hr

theorem closures_eq {n : Nfa} (h : n.WF) : (List.range n.states.length).mapM (closure n) = some ((List.range n.states.length).map n.closure) :=
  mapM_some (fun q _ => closure_eq h q)

theorem closures_get {n : Nfa} (h : n.WF) {q : Nat} (hq : q < n.states.length) :
    ((List.range n.states.length).filterMap n.closure)[q]? = some (((List.range n.states.length).filterMap n.closure).getD q []) ∧
      ∀ x ∈ ((List.range n.states.length).filterMap n.closure).getD q [], x < n.states.length := by
  have hl : ((List.range n.states.length).filterMap n.closure).map some = (List.range n.states.length).map n.closure := by
    rw [List.map_filterMap]
    have : ∀ l : List Nat, (∀ x ∈ l, x < n.states.length) → l.filterMap (fun x => (n.closure x).map some) = l.map n.closure := by
      intro l hl
      induction l with
      | nil => rfl
      | cons x l ih =>
        obtain ⟨r, h1, _⟩ := Dandy.Nfa.closure_spec h (hl x List.mem_cons_self)
        rw [List.filterMap_cons, h1, List.map_cons, h1, ih (fun y hy => hl y (List.mem_cons_of_mem _ hy))]
        rfl
    exact this _ (fun x hx => List.mem_range.1 hx)
  have hlen : ((List.range n.states.length).filterMap n.closure).length = n.states.length := by
    have := congrArg List.length hl
    simpa using this
  have e := getElem?_of_lt [] (l := (List.range n.states.length).filterMap n.closure) (i := q) (by omega)
  refine ⟨e, ?_⟩
  obtain ⟨r, h1, _, h3⟩ := Dandy.Nfa.closure_spec h hq
  have e2 : (((List.range n.states.length).filterMap n.closure).map some)[q]? = some (some r) := by
    rw [hl]
    simp [hq, h1]
  rw [List.getElem?_map, e] at e2
  simp only [Option.map_some, Option.some.injEq] at e2
  rw [e2]
  intro x hx
  exact Dandy.Nfa.EpsR.lt h hq ((h3 x).1 hx)

theorem removeEpsilonMoves_eq {ordT : Nat → Nat → List Nat → List Nat} {ordDead : List Nat → List Nat} (hd : ∀ l, (ordDead l).Perm l)
    {n : Nfa} (h : n.WF) : removeEpsilonMoves ordT ordDead n = n.removeEpsilonMoves ordT ordDead := by
  unfold removeEpsilonMoves Dandy.Nfa.removeEpsilonMoves
  split
  · rfl
  · rw [closures_eq h]
    simp only [Option.bind_eq_bind, Option.bind_some, List.filterMap_map, Function.id_comp]
    have hget := @closures_get n h
    generalize (List.range n.states.length).filterMap n.closure = cls at hget
    have hs1 : n.states.zipIdx.mapM (fun p : NfaState × Nat => (p.1.transitions.zipIdx.mapM (fun q : List Nat × Nat => (q.1.mapM (fun t => cls[t]?)).bind fun ls =>
          pure (ordT p.2 q.2 (ls.foldl sextend [])))).bind fun tr => (pure { p.1 with transitions := tr, epsilonTransitions := [] } : Option NfaState)) =
        some (n.states.zipIdx.map (fun p : NfaState × Nat => { p.1 with
          transitions := p.1.transitions.zipIdx.map (fun q : List Nat × Nat => ordT p.2 q.2 (q.1.foldl (fun set t => sextend set (cls.getD t [])) []))
          epsilonTransitions := [] })) := by
      refine mapM_some ?_
      rintro ⟨st, i⟩ hp
      have hst : st ∈ n.states := List.fst_mem_of_mem_zipIdx hp
      have : st.transitions.zipIdx.mapM (fun q => (q.1.mapM (fun t => cls[t]?)).bind fun ls => (pure (ordT i q.2 (ls.foldl sextend [])) : Option (List Nat))) =
          some (st.transitions.zipIdx.map (fun q => ordT i q.2 (q.1.foldl (fun set t => sextend set (cls.getD t [])) []))) := by
        refine mapM_some ?_
        rintro ⟨ts, c⟩ hq
        have hts : ts ∈ st.transitions := List.fst_mem_of_mem_zipIdx hq
        rw [mapM_some (g := fun t => cls.getD t []) (fun t ht => (hget (h.targets st hst ts hts t ht)).1)]
        simp only [Option.bind_some, List.foldl_map]
        rfl
      dsimp only
      rw [this]
      rfl
    rw [hs1]
    simp only [Option.bind_some]
    generalize hst1 : n.states.zipIdx.map _ = states1
    have hlen1 : states1.length = n.states.length := by rw [← hst1]; simp
    have hrow1 : ∀ s ∈ states1, s.transitions.length = n.alphabet.length := by
      intro s hs
      rw [← hst1] at hs
      obtain ⟨⟨st, i⟩, hp, rfl⟩ := List.mem_map.1 hs
      simp only [List.length_map, List.length_zipIdx]
      exact h.row_len st (List.fst_mem_of_mem_zipIdx hp)
    cases hdl : Dandy.Nfa.deadLoop states1 (n.states.length + 1) [] with
    | none => rfl
    | some dead =>
      have hdead : dead.Pairwise (· < ·) := deadLoop_sorted .nil hdl
      obtain ⟨hi1, hi2⟩ := hget h.init_lt
      rw [hi1]
      simp only [Option.bind_some]
      generalize hic : (cls.getD n.initialState []).filter (· ∉ dead) = ic
      have hicl : ∀ x ∈ ic, x < n.states.length := by
        intro x hx
        rw [← hic] at hx
        exact hi2 x (List.mem_filter.1 hx).1
      have fin : ∀ (sts : List NfaState) (D : List Nat) (q : Nat), D.Pairwise (· < ·) →
          removeStates { n with states := sts, initialState := q } (ordDead D) =
          Dandy.Nfa.removeStates { n with states := sts, initialState := q } (ordDead D) :=
        fun sts D q hD => removeStates_eq ((hd _).nodup_iff.2 (sorted_nodup hD))
      by_cases hgt : ic.length > 1
      · simp only [if_pos hgt]
        rw [clearInitial_eq (by rw [hlen1]; exact h.init_lt)]
        simp only [Option.bind_some]
        generalize hst2 : states1.modify n.initialState _ = states2
        have hlen2 : states2.length = n.states.length := by rw [← hst2, List.length_modify, hlen1]
        have hrow2 : ∀ s ∈ states2, s.transitions.length = n.alphabet.length := by
          intro s hs
          rw [← hst2] at hs
          obtain ⟨i, hi⟩ := List.getElem?_of_mem hs
          rw [List.getElem?_modify] at hi
          obtain ⟨x, hx, he⟩ := Option.map_eq_some_iff.1 hi
          have := hrow1 x (List.mem_of_getElem? hx)
          split at he <;> (rw [← he]; exact this)
        have hget2 : ∀ x < n.states.length, states2[x]? = some (states2.getD x default) := fun x hx => getElem?_of_lt default (by omega)
        have hacc : ic.mapM (fun i => (states2[i]?).bind fun s => (pure s.accepting : Option Bool)) = some (ic.map (fun i => (states2.getD i default).accepting)) :=
          mapM_some (fun x hx => by rw [hget2 x (hicl x hx)]; rfl)
        have htr : ∀ D : List Nat, (List.range n.alphabet.length).mapM (fun c => (ic.mapM (fun s => (states2[s]?).bind fun s => s.transitions[c]?)).bind
            fun ls => (pure ((ordT n.states.length c (ls.foldl sextend [])).filter (· ∉ D)) : Option (List Nat))) =
          some ((List.range n.alphabet.length).map (fun c => (ordT n.states.length c (ic.foldl (fun set s =>
            sextend set ((states2.getD s default).transitions.getD c [])) [])).filter (· ∉ D))) := by
          intro D
          refine mapM_some ?_
          intro c hc
          rw [mapM_some (g := fun s => (states2.getD s default).transitions.getD c []) (fun x hx => by
            rw [hget2 x (hicl x hx)]
            exact getElem?_of_lt [] (by rw [hrow2 _ (List.mem_of_getElem? (hget2 x (hicl x hx)))]; exact List.mem_range.1 hc))]
          simp only [Option.bind_some, List.foldl_map]
          rfl
        rw [hget2 _ h.init_lt]
        simp only [Option.bind_some]
        generalize states2.getD n.initialState default = old
        by_cases hod : (!old.accepting && old.transitions.all (fun ts => ts.all (· ∈ dead))) = true
        · simp only [if_pos hod]
          cases hd2 : Dandy.Nfa.deadLoop states2 (n.states.length + 1) (sins n.initialState dead) with
          | none => rfl
          | some dead2 =>
            simp only [Option.bind_some]
            rw [htr, hacc]
            simp only [Option.bind_some, List.any_map]
            exact fin _ _ _ (deadLoop_sorted (sorted_sins hdead) hd2)
        · simp only [if_neg hod, Option.bind_some]
          rw [htr, hacc]
          simp only [Option.bind_some, List.any_map]
          exact fin _ _ _ hdead
      · simp only [if_neg hgt, Option.bind_some]
        exact fin _ _ _ hdead

theorem optimize_eq {ordU : List Nat → List Nat} {ordT : Nat → Nat → List Nat → List Nat} {ordDead : List Nat → List Nat}
    (hU : ∀ l, (ordU l).Perm l) (hd : ∀ l, (ordDead l).Perm l) {n : Nfa} (h : n.WF) :
    optimize ordU ordT ordDead n = n.optimize ordU ordT ordDead := by
  unfold optimize Dandy.Nfa.optimize
  rw [removeUnreachable_eq hU h]
  obtain ⟨kept, h1, _, h2, h3⟩ := Dandy.Nfa.removeUnreachableStates_eq hU h
  rw [h3]
  exact removeEpsilonMoves_eq hd (Dandy.Nfa.restr_wf' h h2)

/-! ### Conversion and equivalence -/

theorem toDfa_eq {n : Nfa} (h : n.WF) : toDfa n = n.toDfa := by
  obtain ⟨h0, hok⟩ := NfaEval.new_eq h
  unfold toDfa Dandy.Nfa.toDfa
  rw [h0]
  simp only [Option.bind_eq_bind, Option.bind_some]
  have hinit : ∀ s ∈ [Dandy.NfaEval.new n], s.Ok := by
    intro s hs
    rw [List.mem_singleton.1 hs]
    exact hok
  rw [explore_eq (succ := Dandy.NfaEval.stepAll) (ok := fun _ => true) Dandy.NfaEval.Ok (fun p hp => NfaEval.stepAll_eq hp) (fun _ _ => rfl)
    (fun p hp => NfaEval.stepAll_ok hp) _ _ _ _ hinit]
  generalize hr : Dandy.explore Dandy.NfaEval.currentStatesIdx _ _ _ _ _ _ = r
  rcases r with _ | _ | ⟨out, seen⟩
  · rfl
  · rfl
  · obtain ⟨ho1, ho2⟩ := Dfa.explore_inv _ (fun p hp => NfaEval.stepAll_ok hp) _ _ _ _ hinit hinit (fun s hs => absurd hs List.not_mem_nil) hr
    simp only [Option.bind_some]
    have e1 : ∀ keys : List (List Nat), out.mapM (fun ev => (NfaEval.stepAll ev).bind fun l => (l.mapM (fun ev' => keys.findIdx? (· == ev'.currentStatesIdx))).bind
        fun tr => pure (ev.currentStatesIdx, tr)) = out.mapM (fun ev => (ev.stepAll.mapM (fun ev' => keys.findIdx? (· == ev'.currentStatesIdx))).bind
        fun tr => pure (ev.currentStatesIdx, tr)) := by
      intro keys
      refine mapM_congr ?_
      intro ev hev
      rw [NfaEval.stepAll_eq (ho1 ev hev)]
      rfl
    rw [e1]
    refine congrArg _ (funext fun trs => ?_)
    have e2 : seen.zipIdx.mapM (fun p => (trs.lookup p.1.currentStatesIdx).bind fun tr => (NfaEval.isAccepting p.1).bind fun b =>
        (pure { name := numStr p.2, initial := p.2 == 0, accepting := b, transitions := tr } : Option DfaState)) =
      seen.zipIdx.mapM (fun p => (trs.lookup p.1.currentStatesIdx).bind fun tr =>
        (pure { name := numStr p.2, initial := p.2 == 0, accepting := p.1.isAccepting, transitions := tr } : Option DfaState)) := by
      refine mapM_congr ?_
      rintro ⟨ev, i⟩ hp
      rw [NfaEval.isAccepting_eq (ho2 ev (List.fst_mem_of_mem_zipIdx hp))]
      rfl
    rw [e2]

theorem pairSucc_eq {p : Dandy.NfaEval × Dandy.NfaEval} (h1 : p.1.Ok) (h2 : p.2.Ok) (al : List Str) :
    pairSucc al p = some (Dandy.Nfa.pairSucc al p) ∧ ∀ t ∈ Dandy.Nfa.pairSucc al p, t.1.Ok ∧ t.2.Ok := by
  refine ⟨mapM_some (fun e _ => by rw [(NfaEval.step_eq h1 e).1, (NfaEval.step_eq h2 e).1]; rfl), ?_⟩
  intro t ht
  obtain ⟨e, _, rfl⟩ := List.mem_map.1 ht
  exact ⟨(NfaEval.step_eq h1 e).2.1, (NfaEval.step_eq h2 e).2.1⟩

theorem equivalent_eq {n o : Nfa} (hn : n.WF) (ho : o.WF) : equivalentTo n o = n.equivalentTo o := by
  unfold equivalentTo Dandy.Nfa.equivalentTo
  split
  · rfl
  · obtain ⟨e1, k1⟩ := NfaEval.new_eq hn
    obtain ⟨e2, k2⟩ := NfaEval.new_eq ho
    rw [e1, e2]
    simp only [Option.bind_eq_bind, Option.bind_some]
    rw [explore_eq (succ := Dandy.Nfa.pairSucc n.alphabet) (ok := fun p => p.1.isAccepting == p.2.isAccepting) (fun p => p.1.Ok ∧ p.2.Ok)
      (fun p hp => (pairSucc_eq hp.1 hp.2 _).1) (fun p hp => by rw [NfaEval.isAccepting_eq hp.1, NfaEval.isAccepting_eq hp.2]; rfl)
      (fun p hp t ht => (pairSucc_eq hp.1 hp.2 _).2 t ht)]
    · generalize Dandy.explore Dandy.Nfa.pairKey _ _ _ _ _ _ = r
      rcases r with _ | _ | _ <;> rfl
    · intro s hs
      rw [List.mem_singleton.1 hs]
      exact ⟨k1, k2⟩

end Nfa

end Checked
end Dandy
