import Verif.Props.DfaEvaluator
import Verif.Proofs.ToNfa
/-! # C02, C04, C05, C06 (NFA part), C18: NFA evaluation -/

namespace Dandy
open Samples

/-- **C02** `Nfa::accepts` decides the language: some path labelled with the word, with epsilon moves anywhere, ends in
an accepting state. -/
theorem C02_nfa_accepts_iff (n : Nfa) (hn : n.WF) (w : Word) : n.accepts w = true ↔ n.Lang w := Nfa.accepts_iff hn w

/-- **C02** A word with an element outside the alphabet is rejected. -/
theorem C02_nfa_rejects_foreign (n : Nfa) (hn : n.WF) (w : Word) (e : Str) (he : e ∈ w) (hx : e ∉ n.alphabet) :
    n.accepts w = false := by
  by_contra hc
  rw [Bool.not_eq_false, C02_nfa_accepts_iff n hn] at hc
  exact hx (Nfa.over_of_lang hc e he)

example : epsNfa.WF ∧ epsNfa.accepts [] = true ∧ epsNfa.accepts [s 'b', s 'b'] = true ∧
    epsNfa.accepts [s 'b', s 'a', s 'a', s 'b'] = true ∧ epsNfa.accepts [s 'a', s 'b', s 'a'] = false ∧
    epsNfa.accepts [s 'b', s 'z'] = false := ⟨epsNfa_wf, by decide, by decide, by decide, by decide, by decide⟩

/-- The effect of a call on an NFA evaluator. -/
def StepCall.runNfa (ev : NfaEval) : StepCall → NfaEval
  | .step e => (ev.step e).1
  | .stepMultiple es => (ev.stepMultiple es).1

/-- The evaluator after a history of calls on a fresh evaluator. -/
def nfaHistory (n : Nfa) (cs : List StepCall) : NfaEval := cs.foldl StepCall.runNfa (NfaEval.new n)

theorem StepCall.runNfa_known {n : Nfa} {S T : List Nat} {b : Bool} {c : StepCall} (h : n.setE S c.fed = some T) :
    StepCall.runNfa ⟨n, S, b⟩ c = ⟨n, T, b⟩ := by
  cases c with
  | step e =>
    simp only [StepCall.fed, Nfa.setE] at h
    cases hi : revGet n.alphabet e with
    | none => simp [hi] at h
    | some i =>
      simp only [hi, Option.bind_some, Option.some.injEq] at h
      subst h
      simp [StepCall.runNfa, NfaEval.step_known hi]
  | stepMultiple es =>
    simp only [StepCall.fed] at h
    simp [StepCall.runNfa, NfaEval.stepMultiple_known h]

theorem StepCall.runNfa_unknown {n : Nfa} {S : List Nat} {b : Bool} {c : StepCall} (h : n.setE S c.fed = none) :
    ∃ T, StepCall.runNfa ⟨n, S, b⟩ c = ⟨n, T, true⟩ := by
  cases c with
  | step e =>
    simp only [StepCall.fed, Nfa.setE] at h
    cases hi : revGet n.alphabet e with
    | none => exact ⟨S, by simp [StepCall.runNfa, NfaEval.step_unknown hi]⟩
    | some i => simp [hi] at h
  | stepMultiple es =>
    simp only [StepCall.fed] at h
    obtain ⟨T, hT⟩ := NfaEval.stepMultiple_unknown (b := b) h
    exact ⟨T, by simp [StepCall.runNfa, hT]⟩

theorem nfaHistory_stuck {n : Nfa} (cs : List StepCall) (S : List Nat) :
    ∃ T, cs.foldl StepCall.runNfa ⟨n, S, true⟩ = ⟨n, T, true⟩ := by
  induction cs generalizing S with
  | nil => exact ⟨S, rfl⟩
  | cons c cs ih =>
    rw [List.foldl_cons]
    cases hq : n.setE S c.fed with
    | none => obtain ⟨T, hT⟩ := StepCall.runNfa_unknown (b := true) hq; rw [hT]; exact ih T
    | some T => rw [StepCall.runNfa_known hq]; exact ih T

theorem nfaHistory_inv (n : Nfa) (cs : List StepCall) (S : List Nat) :
    (∀ T, n.setE S (fedWord cs) = some T → cs.foldl StepCall.runNfa ⟨n, S, false⟩ = ⟨n, T, false⟩) ∧
    (n.setE S (fedWord cs) = none → ∃ T, cs.foldl StepCall.runNfa ⟨n, S, false⟩ = ⟨n, T, true⟩) := by
  induction cs generalizing S with
  | nil => simp [fedWord, Nfa.setE]
  | cons c cs ih =>
    have key : n.setE S (fedWord (c :: cs)) = (n.setE S c.fed).bind (fun t => n.setE t (fedWord cs)) := by
      simp only [fedWord, List.flatMap_cons, Nfa.setE_append]
    rw [key, List.foldl_cons]
    cases hq : n.setE S c.fed with
    | none =>
      obtain ⟨T, hT⟩ := StepCall.runNfa_unknown (b := false) hq
      rw [hT]
      simpa using nfaHistory_stuck cs T
    | some T =>
      rw [StepCall.runNfa_known hq]
      simpa using ih T

/-- **C04** After any history of known elements, the evaluator's state set is exactly the set of states reachable by a
path labelled with what was fed. `current_states` lists those states, each once. -/
theorem C04_nfa_history_states (n : Nfa) (hn : n.WF) (cs : List StepCall) (hk : Over n.alphabet (fedWord cs)) :
    (∀ q, q ∈ (nfaHistory n cs).currentStatesIdx ↔ n.Path n.initialState (fedWord cs) q) ∧
    (∀ ord : List Nat → List Nat, (∀ l, (ord l).Perm l) →
      ((nfaHistory n cs).currentStates ord).map some = (ord (nfaHistory n cs).currentStatesIdx).map (n.states[·]?) ∧
      ((nfaHistory n cs).currentStates ord).Nodup) := by
  obtain ⟨T, hT⟩ := Nfa.setE_exists (n := n) (S := n.iset) hk
  have ha := Nfa.isAfter_setE hn (Nfa.isAfter_iset hn) hT
  rw [List.nil_append] at ha
  have hh : nfaHistory n cs = ⟨n, T, false⟩ := (nfaHistory_inv n cs n.iset).1 T hT
  rw [hh]
  refine ⟨ha.2, fun ord hord => ?_⟩
  have hlt : ∀ x ∈ ord T, x < n.states.length := fun x hx => ha.lt hn x ((hord T).mem_iff.1 hx)
  have heq : (NfaEval.currentStates ord ⟨n, T, false⟩).map some = (ord T).map (n.states[·]?) := by
    simp only [NfaEval.currentStates, List.map_map]
    exact List.map_congr_left (fun x hx => (Nfa.getElem?_state (hlt x hx)).symm)
  refine ⟨heq, ?_⟩
  simp only [NfaEval.currentStates]
  refine (List.nodup_map_iff_inj_on ((hord T).nodup_iff.2 (sorted_nodup ha.1))).2 ?_
  intro x hx y hy hxy
  have h1 := Nfa.getElem?_state (hlt x hx)
  have h2 := Nfa.getElem?_state (hlt y hy)
  have hnd := hn.names_nodup
  exact (List.getElem?_inj (i := x) (by simpa using hlt x hx) hnd).1 (by simp [h1, h2, hxy])

/-- **C04** For every history, also with unknown elements, the evaluator accepts iff the concatenation of everything fed
is in the language; in particular never again after an unknown element. -/
theorem C04_nfa_history_accepting (n : Nfa) (hn : n.WF) (cs : List StepCall) :
    ((nfaHistory n cs).isAccepting = true ↔ n.Lang (fedWord cs)) ∧
    (nfaHistory n cs).isAccepting = n.accepts (fedWord cs) ∧
    ((∃ e ∈ fedWord cs, e ∉ n.alphabet) → (nfaHistory n cs).isAccepting = false) := by
  have main : (nfaHistory n cs).isAccepting = true ↔ n.Lang (fedWord cs) := by
    have inv := nfaHistory_inv n cs n.iset
    cases hr : n.setE n.iset (fedWord cs) with
    | none =>
      obtain ⟨T, hT⟩ := inv.2 hr
      have hh : nfaHistory n cs = ⟨n, T, true⟩ := hT
      rw [hh]
      simp only [NfaEval.isAccepting, if_true, Bool.false_eq_true, false_iff]
      intro hl
      rw [Nfa.setE_none] at hr
      obtain ⟨e, h1, h2⟩ := hr
      exact h2 (Nfa.over_of_lang hl e h1)
    | some T =>
      have hh : nfaHistory n cs = ⟨n, T, false⟩ := inv.1 T hr
      have := Nfa.isAfter_setE hn (Nfa.isAfter_iset hn) hr
      rw [List.nil_append] at this
      rw [hh, Nfa.lang_iff this]
      simp [NfaEval.isAccepting]
  refine ⟨main, by rw [Bool.eq_iff_iff, main, C02_nfa_accepts_iff n hn], ?_⟩
  rintro ⟨e, h1, h2⟩
  by_contra hc
  rw [Bool.not_eq_false, main] at hc
  exact h2 (Nfa.over_of_lang hc e h1)

/-- **C04** `step` succeeds iff the element is known, `step_multiple` iff all elements are. -/
theorem C04_nfa_step_result (ev : NfaEval) (e : Str) (es : List Str) :
    ((ev.step e).2 = some () ↔ e ∈ ev.nfa.alphabet) ∧
    ((ev.stepMultiple es).2 = some () ↔ Over ev.nfa.alphabet es) := by
  obtain ⟨n, S, b⟩ := ev
  constructor
  · cases hi : revGet n.alphabet e with
    | none => rw [NfaEval.step_unknown hi]; rw [revGet_none] at hi; simpa using hi
    | some i => rw [NfaEval.step_known hi]; simpa using List.mem_of_getElem? (revGet_some hi)
  · cases hi : n.setE S es with
    | none =>
      obtain ⟨T, hT⟩ := NfaEval.stepMultiple_unknown (b := b) hi
      rw [hT]
      rw [Nfa.setE_none] at hi
      obtain ⟨e, h1, h2⟩ := hi
      simp only [reduceCtorEq, false_iff]
      intro h; exact h2 (h e h1)
    | some T =>
      rw [NfaEval.stepMultiple_known hi]
      simp only [true_iff]
      intro e he
      by_contra hc
      rw [Nfa.setE_none.2 ⟨e, he, hc⟩] at hi
      cases hi

example : epsNfa.WF ∧ Over epsNfa.alphabet (fedWord [.step (s 'a'), .stepMultiple [s 'b'], .stepMultiple []]) ∧
    (nfaHistory epsNfa [.step (s 'a'), .stepMultiple [s 'b'], .stepMultiple []]).currentStatesIdx = [1, 2, 4] ∧
    (nfaHistory epsNfa [.stepMultiple [s 'a', s 'z', s 'a'], .step (s 'b')]).isAccepting = false := by
  refine ⟨epsNfa_wf, by decide, by decide, by decide⟩

/-- **C05** `Nfa::closure` returns `None` exactly for indices that are no states, and otherwise exactly the states
reachable by epsilon moves (also with epsilon cycles). -/
theorem C05_closure (n : Nfa) (hn : n.WF) (i : Nat) :
    (n.closure i = none ↔ ¬ i < n.states.length) ∧
    ∀ r, n.closure i = some r → r.Nodup ∧ ∀ q, q ∈ r ↔ n.Path i [] q := by
  by_cases hi : i < n.states.length
  · obtain ⟨r, h1, h2, h3⟩ := Nfa.closure_spec hn hi
    rw [h1]
    refine ⟨by simp [hi], fun r' hr => ?_⟩
    cases hr
    exact ⟨sorted_nodup h2, fun q => by rw [h3, Nfa.path_nil_iff]⟩
  · have : n.closure i = none := by unfold Nfa.closure; rw [if_pos (by omega)]
    rw [this]
    simp [hi]

example : epsNfa.WF ∧ epsNfa.closure 0 = some [0, 1, 2, 4] ∧ epsNfa.closure 6 = none := ⟨epsNfa_wf, by decide, by decide⟩

/-- **C06** `NfaEvaluator::step_all`: one evaluator per element, in order, the `i`-th being the evaluator stepped by the
`i`-th element. -/
theorem C06_nfa_step_all (ev : NfaEval) :
    ev.stepAll.length = ev.nfa.alphabet.length ∧
    ∀ (i : Nat) (e : Str), ev.nfa.alphabet[i]? = some e → ev.stepAll[i]? = some (ev.step e).1 := by
  refine ⟨by simp [NfaEval.stepAll], fun i e h => by simp [NfaEval.stepAll, h]⟩

/-- **C06** Semantically: after any history, the `i`-th evaluator of `step_all` accepts iff the word fed so far extended
with the `i`-th element is in the language. -/
theorem C06_nfa_step_all_accepts (n : Nfa) (hn : n.WF) (cs : List StepCall) (i : Nat) (e : Str)
    (he : n.alphabet[i]? = some e) :
    ∃ ev, (nfaHistory n cs).stepAll[i]? = some ev ∧ (ev.isAccepting = true ↔ n.Lang (fedWord cs ++ [e])) := by
  have hnfa : (nfaHistory n cs).nfa = n := by
    have inv := nfaHistory_inv n cs n.iset
    cases hr : n.setE n.iset (fedWord cs) with
    | none => obtain ⟨r, h⟩ := inv.2 hr; have : nfaHistory n cs = ⟨n, r, true⟩ := h; rw [this]
    | some r => have : nfaHistory n cs = ⟨n, r, false⟩ := inv.1 r hr; rw [this]
  refine ⟨_, (C06_nfa_step_all _).2 i e (by rw [hnfa]; exact he), ?_⟩
  have := (C04_nfa_history_accepting n hn (cs ++ [.step e])).1
  simp only [nfaHistory, fedWord, List.foldl_append, List.flatMap_append, List.foldl_cons, List.foldl_nil,
    StepCall.runNfa, List.flatMap_cons, List.flatMap_nil, StepCall.fed, List.append_nil] at this
  exact this

example : (nfaHistory epsNfa [.step (s 'a')]).stepAll.map (·.isAccepting) = [false, true] := by decide

/-- **C18** `Dfa::to_nfa` yields a valid NFA with the same language. -/
theorem C18_to_nfa_lang (d : Dfa) (hd : d.WF) (w : Word) :
    d.toNfa.WF ∧ (d.toNfa.Lang w ↔ d.Lang w) ∧ d.toNfa.accepts w = d.accepts w := by
  refine ⟨Dfa.toNfa_wf hd, Dfa.toNfa_lang, ?_⟩
  rw [Bool.eq_iff_iff, C02_nfa_accepts_iff _ (Dfa.toNfa_wf hd), C01_dfa_accepts_iff d hd, Dfa.toNfa_lang]

/-- **C18** Its structure: no epsilon moves, same alphabet, initial state, state count, names and flags, and each
state's transition on an element is exactly the DFA's target. -/
theorem C18_to_nfa_structure (d : Dfa) :
    d.toNfa.hasEpsilonMoves = false ∧ d.toNfa.alphabet = d.alphabet ∧ d.toNfa.initialState = d.initialState ∧
    d.toNfa.states.length = d.states.length ∧
    ∀ (i : Nat) (t : DfaState), d.states[i]? = some t → ∃ u, d.toNfa.states[i]? = some u ∧
      u.name = t.name ∧ u.initial = t.initial ∧ u.accepting = t.accepting ∧ u.epsilonTransitions = [] ∧
      u.transitions = t.transitions.map (fun x => [x]) := by
  refine ⟨?_, rfl, rfl, by simp [Dfa.toNfa], ?_⟩
  · simp [Nfa.hasEpsilonMoves, Dfa.toNfa, DfaState.toNfaState]
  · intro i t h
    exact ⟨t.toNfaState, by simp [Dfa.toNfa, h], rfl, rfl, rfl, rfl, rfl⟩

example : endsB.WF ∧ endsB.toNfa.accepts [s 'a', s 'b'] = true ∧ endsB.toNfa.accepts [s 'b', s 'a'] = false :=
  ⟨endsB_wf, by decide, by decide⟩

/-! ## Instances of the theorems of this file -/

example := C02_nfa_accepts_iff Samples.epsNfa Samples.epsNfa_wf [Samples.s 'b', Samples.s 'a']
example := C04_nfa_history_states epsNfa epsNfa_wf [.step (s 'b'), .stepMultiple [s 'a', s 'b']] (by unfold Over; decide)
example := C04_nfa_history_accepting Samples.epsNfa Samples.epsNfa_wf [.step (Samples.s 'b'), .stepMultiple [Samples.s 'a', Samples.s 'b']]
example := C06_nfa_step_all (NfaEval.new epsNfa)
example := C18_to_nfa_lang Samples.redundant Samples.redundant_wf [Samples.s 'b', Samples.s 'a']

end Dandy
