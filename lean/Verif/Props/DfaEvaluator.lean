import Verif.Props.Samples
/-! # C01, C03, C06 (DFA part), C07: DFA evaluation -/

namespace Dandy
open Samples

/-- **C01** `Dfa::accepts` decides the language given by the transition table. -/
theorem C01_dfa_accepts_iff (d : Dfa) (hd : d.WF) (w : Word) : d.accepts w = true ↔ d.Lang w := by
  rw [Dfa.lang_iff hd]
  unfold Dfa.accepts DfaEval.new
  cases hr : d.runE d.initialState w with
  | none =>
    obtain ⟨r, h⟩ := DfaEval.stepMultiple_unknown hr
    simp [h, DfaEval.isAccepting, DfaEval.currentState]
  | some r => simp [DfaEval.stepMultiple_known hr, DfaEval.isAccepting, DfaEval.currentState]

/-- **C01** A word with an element outside the alphabet is rejected. -/
theorem C01_dfa_rejects_foreign (d : Dfa) (hd : d.WF) (w : Word) (e : Str) (he : e ∈ w) (hn : e ∉ d.alphabet) :
    d.accepts w = false := by
  by_contra hc
  rw [Bool.not_eq_false, C01_dfa_accepts_iff d hd] at hc
  exact hn (Dfa.over_of_lang hd hc e he)

/-- **C01** Runs exist and are unique for words over the alphabet, so acceptance and rejection are about *the* run. -/
theorem C01_dfa_run_unique (d : Dfa) (hd : d.WF) (w : Word) (hw : Over d.alphabet w) :
    ∃ q, d.Run d.initialState w q ∧ q < d.states.length ∧ ∀ q', d.Run d.initialState w q' → q' = q := by
  obtain ⟨q, hq⟩ := Dfa.runE_exists (d := d) d.initialState hw
  refine ⟨q, (Dfa.run_iff hd hd.init_lt).2 hq, Dfa.runE_lt hd hd.init_lt hq, fun q' h => ?_⟩
  rw [Dfa.run_iff hd hd.init_lt, hq] at h
  exact (Option.some.inj h).symm

example : oddA.WF ∧ oddA.accepts [s 'a', s 'b', s 'a', s 'a'] = true ∧ oddA.accepts [s 'a', s 'b', s 'a'] = false ∧
    oddA.accepts [s 'a', s 'z'] = false := ⟨oddA_wf, by decide, by decide, by decide⟩

/-- A call of the public stepping API of an evaluator. -/
inductive StepCall
  | step (e : Str)
  | stepMultiple (es : List Str)
deriving Repr

/-- The elements fed by a call. -/
def StepCall.fed : StepCall → List Str
  | .step e => [e]
  | .stepMultiple es => es

/-- The effect of a call on a DFA evaluator. -/
def StepCall.runDfa (ev : DfaEval) : StepCall → DfaEval
  | .step e => (ev.step e).1
  | .stepMultiple es => (ev.stepMultiple es).1

/-- The evaluator after a history of calls on a fresh evaluator. -/
def dfaHistory (d : Dfa) (cs : List StepCall) : DfaEval := cs.foldl StepCall.runDfa (DfaEval.new d)

/-- All elements fed during a history. -/
def fedWord (cs : List StepCall) : Word := cs.flatMap StepCall.fed

private theorem history_inv (d : Dfa) (cs : List StepCall) (q : Nat) :
    (∀ r, d.runE q (fedWord cs) = some r → cs.foldl StepCall.runDfa ⟨d, q, false⟩ = ⟨d, r, false⟩) ∧
    (d.runE q (fedWord cs) = none → ∃ r, cs.foldl StepCall.runDfa ⟨d, q, false⟩ = ⟨d, r, true⟩) := by
  have stuck : ∀ (cs : List StepCall) (q : Nat), cs.foldl StepCall.runDfa ⟨d, q, true⟩ = ⟨d, q, true⟩ := by
    intro cs
    induction cs with
    | nil => intro q; rfl
    | cons c cs ih =>
      intro q
      cases c with
      | step e => simp only [List.foldl_cons, StepCall.runDfa, DfaEval.step, if_true]; exact ih q
      | stepMultiple es => simp only [List.foldl_cons, StepCall.runDfa, DfaEval.stepMultiple_stuck]; exact ih q
  induction cs generalizing q with
  | nil => simp [fedWord, Dfa.runE]
  | cons c cs ih =>
    have key : d.runE q (fedWord (c :: cs)) = (d.runE q c.fed).bind (fun t => d.runE t (fedWord cs)) := by
      simp only [fedWord, List.flatMap_cons, Dfa.runE_append]
    have hc : ∀ t, d.runE q c.fed = some t → StepCall.runDfa ⟨d, q, false⟩ c = ⟨d, t, false⟩ := by
      intro t ht
      cases c with
      | step e =>
        simp only [StepCall.fed, Dfa.runE] at ht
        cases hn : d.nxt q e with
        | none => simp [hn] at ht
        | some u =>
          simp only [hn, Option.bind_some, Option.some.injEq] at ht
          subst ht
          simp [StepCall.runDfa, DfaEval.step_known hn]
      | stepMultiple es =>
        simp only [StepCall.fed] at ht
        simp [StepCall.runDfa, DfaEval.stepMultiple_known ht]
    have hc' : d.runE q c.fed = none → ∃ r, StepCall.runDfa ⟨d, q, false⟩ c = ⟨d, r, true⟩ := by
      intro ht
      cases c with
      | step e =>
        simp only [StepCall.fed, Dfa.runE] at ht
        cases hn : d.nxt q e with
        | none => exact ⟨q, by simp [StepCall.runDfa, DfaEval.step_unknown hn]⟩
        | some u => simp [hn] at ht
      | stepMultiple es =>
        simp only [StepCall.fed] at ht
        obtain ⟨r, hr⟩ := DfaEval.stepMultiple_unknown ht
        exact ⟨r, by simp [StepCall.runDfa, hr]⟩
    rw [key, List.foldl_cons]
    cases hq : d.runE q c.fed with
    | none =>
      obtain ⟨r, hr⟩ := hc' hq
      rw [hr, stuck]
      simp
    | some t =>
      rw [hc t hq]
      simpa using ih t

/-- **C03** For every history of `step`/`step_multiple` calls, the evaluator accepts iff the concatenation of everything
fed is in the language, i.e. iff `Dfa::accepts` accepts it in one go. -/
theorem C03_history_accepting (d : Dfa) (hd : d.WF) (cs : List StepCall) :
    ((dfaHistory d cs).isAccepting = true ↔ d.Lang (fedWord cs)) ∧
    (dfaHistory d cs).isAccepting = d.accepts (fedWord cs) := by
  have main : (dfaHistory d cs).isAccepting = true ↔ d.Lang (fedWord cs) := by
    rw [Dfa.lang_iff hd]
    have := history_inv d cs d.initialState
    unfold dfaHistory DfaEval.new
    cases hr : d.runE d.initialState (fedWord cs) with
    | none =>
      obtain ⟨r, h⟩ := this.2 hr
      simp [h, DfaEval.isAccepting, DfaEval.currentState]
    | some r => simp [this.1 r hr, DfaEval.isAccepting, DfaEval.currentState]
  exact ⟨main, by rw [Bool.eq_iff_iff, main, C01_dfa_accepts_iff d hd]⟩

/-- **C03** The current state is the state the run has reached, and there is none exactly when some unknown element was
fed at any point of the history (stickiness). The index reported is always that of an existing state. -/
theorem C03_history_state (d : Dfa) (hd : d.WF) (cs : List StepCall) :
    (∀ q, d.Run d.initialState (fedWord cs) q →
      (dfaHistory d cs).currentStateIdx = q ∧ (dfaHistory d cs).currentState = d.states[q]?) ∧
    ((dfaHistory d cs).currentState = none ↔ ∃ e ∈ fedWord cs, e ∉ d.alphabet) := by
  have inv := history_inv d cs d.initialState
  constructor
  · intro q hq
    rw [Dfa.run_iff hd hd.init_lt] at hq
    have hlt := Dfa.runE_lt hd hd.init_lt hq
    unfold dfaHistory DfaEval.new
    rw [inv.1 q hq, Dfa.getElem?_state hlt]
    exact ⟨rfl, rfl⟩
  · rw [← Dfa.runE_none (q := d.initialState)]
    unfold dfaHistory DfaEval.new
    cases hr : d.runE d.initialState (fedWord cs) with
    | none => obtain ⟨r, h⟩ := inv.2 hr; simp [h, DfaEval.currentState]
    | some r => simp [inv.1 r hr, DfaEval.currentState]

/-- **C03** What `step` and `step_multiple` (with at least one element) return is the current state afterwards. -/
theorem C03_returned_state (ev : DfaEval) (e : Str) (es : List Str) :
    (ev.step e).2 = (ev.step e).1.currentState ∧
    (ev.stepMultiple (e :: es)).2 = (ev.stepMultiple (e :: es)).1.currentState := by
  obtain ⟨d, q, u⟩ := ev
  cases u with
  | true => simp [DfaEval.step, DfaEval.currentState, DfaEval.stepMultiple, DfaEval.tryForEach]
  | false =>
    constructor
    · cases hn : d.nxt q e with
      | none => simp [DfaEval.step_unknown hn, DfaEval.currentState]
      | some t => simp [DfaEval.step_known hn, DfaEval.currentState]
    · cases hr : d.runE q (e :: es) with
      | none => obtain ⟨r, h⟩ := DfaEval.stepMultiple_unknown hr; simp [h, DfaEval.currentState]
      | some r => simp [DfaEval.stepMultiple_known hr, DfaEval.currentState]

/-- The full claim about `step_multiple`'s result, for every chunk including the empty one. -/
def C03_claim_step_multiple : Prop :=
  ∀ (d : Dfa), d.WF → ∀ (cs : List StepCall) (es : List Str),
    ((dfaHistory d cs).stepMultiple es).2 = ((dfaHistory d cs).stepMultiple es).1.currentState

/-- **C03 (deviation)** The full claim is false: after an unknown element, `step_multiple(&[])` reports a state. -/
theorem C03_step_multiple_empty_counterexample : ¬ C03_claim_step_multiple := by
  intro h
  exact absurd (h oddA oddA_wf [.step (s 'z')] []) (by decide)

/-- **C03 (partial)** The claim restricted to non-empty chunks; the missing case is the empty chunk, for which the claim
is false (`C03_step_multiple_empty_counterexample`). -/
theorem C03_step_multiple_result_partial (d : Dfa) (cs : List StepCall) (es : List Str)
    (hne : es ≠ []) :
    ((dfaHistory d cs).stepMultiple es).2 = ((dfaHistory d cs).stepMultiple es).1.currentState := by
  cases es with
  | nil => exact absurd rfl hne
  | cons e es => exact (C03_returned_state _ e es).2

example : (dfaHistory oddA [.step (s 'a'), .stepMultiple [s 'b', s 'b'], .step (s 'a'), .step (s 'a')]).isAccepting = true
    ∧ (dfaHistory oddA [.step (s 'a'), .step (s 'z'), .stepMultiple [s 'a', s 'a']]).currentState = none := by decide

/-- **C06** `DfaEvaluator::step_all`: one evaluator per element, in order, the `i`-th being the evaluator stepped by the
`i`-th element. -/
theorem C06_dfa_step_all (ev : DfaEval) :
    ev.stepAll.length = ev.dfa.alphabet.length ∧
    ∀ (i : Nat) (e : Str), ev.dfa.alphabet[i]? = some e → ev.stepAll[i]? = some (ev.step e).1 := by
  refine ⟨by simp [DfaEval.stepAll], fun i e h => by simp [DfaEval.stepAll, h]⟩

/-- **C06** Semantically: after any history, the `i`-th evaluator of `step_all` accepts iff the word fed so far extended
with the `i`-th element is in the language. -/
theorem C06_dfa_step_all_accepts (d : Dfa) (hd : d.WF) (cs : List StepCall) (i : Nat) (e : Str)
    (he : d.alphabet[i]? = some e) :
    ∃ ev, (dfaHistory d cs).stepAll[i]? = some ev ∧ (ev.isAccepting = true ↔ d.Lang (fedWord cs ++ [e])) := by
  have hdfa : (dfaHistory d cs).dfa = d := by
    have inv := history_inv d cs d.initialState
    unfold dfaHistory DfaEval.new
    cases hr : d.runE d.initialState (fedWord cs) with
    | none => obtain ⟨r, h⟩ := inv.2 hr; rw [h]
    | some r => rw [inv.1 r hr]
  refine ⟨_, (C06_dfa_step_all _).2 i e (by rw [hdfa]; exact he), ?_⟩
  have := (C03_history_accepting d hd (cs ++ [.step e])).1
  simp only [dfaHistory, fedWord, List.foldl_append, List.flatMap_append, List.foldl_cons, List.foldl_nil,
    StepCall.runDfa, List.flatMap_cons, List.flatMap_nil, StepCall.fed, List.append_nil] at this
  exact this

example : (dfaHistory oddA [.step (s 'b')]).stepAll.map (·.isAccepting) = [true, false] := by decide

/-! ## C07 invert -/

theorem Dfa.invert_wf {d : Dfa} (hd : d.WF) : d.invert.WF := by
  refine ⟨hd.alphabet_nodup, ?_, ?_, ?_, ?_, ?_⟩
  · simpa [Dfa.invert, Function.comp_def] using hd.names_nodup
  · intro t ht
    obtain ⟨u, hu, rfl⟩ := List.mem_map.1 ht
    exact hd.row_len u hu
  · intro t ht x hx
    obtain ⟨u, hu, rfl⟩ := List.mem_map.1 ht
    simpa [Dfa.invert] using hd.targets u hu x hx
  · simpa [Dfa.invert] using hd.init_lt
  · intro i t ht
    simp only [Dfa.invert, List.getElem?_map, Option.map_eq_some_iff] at ht
    obtain ⟨u, hu, rfl⟩ := ht
    exact hd.init_flag i u hu

theorem Dfa.invert_state {d : Dfa} {q : Nat} (h : q < d.states.length) :
    d.invert.state q = { d.state q with accepting := !(d.state q).accepting } := by
  apply Dfa.state_of_getElem?
  simp [Dfa.invert, Dfa.getElem?_state h]

theorem Dfa.invert_runE {d : Dfa} (hd : d.WF) {q : Nat} (h : q < d.states.length) (w : Word) :
    d.invert.runE q w = d.runE q w := by
  induction w generalizing q with
  | nil => rfl
  | cons e w ih =>
    have : d.invert.nxt q e = d.nxt q e := by
      simp only [Dfa.nxt, Dfa.invert_state h]; rfl
    simp only [Dfa.runE, this]
    cases hn : d.nxt q e with
    | none => rfl
    | some t => simp only [Option.bind_some]; exact ih (Dfa.nxt_lt hd h hn)

/-- **C07** After `invert`, a word over the alphabet is accepted iff it was rejected before; other words stay rejected. -/
theorem C07_invert_complement (d : Dfa) (hd : d.WF) (w : Word) :
    d.invert.WF ∧ (d.invert.Lang w ↔ Over d.alphabet w ∧ ¬ d.Lang w) ∧
    (d.invert.accepts w = true ↔ Over d.alphabet w ∧ d.accepts w = false) := by
  have hi := Dfa.invert_wf hd
  have main : d.invert.Lang w ↔ Over d.alphabet w ∧ ¬ d.Lang w := by
    rw [Dfa.lang_iff hi, Dfa.lang_iff hd]
    have hinit : d.invert.initialState = d.initialState := rfl
    rw [hinit, Dfa.invert_runE hd hd.init_lt]
    cases hr : d.runE d.initialState w with
    | none =>
      rw [Dfa.runE_none] at hr
      obtain ⟨e, h1, h2⟩ := hr
      simp only [reduceCtorEq, false_and, exists_false, not_false_iff, and_true, false_iff]
      intro h; exact h2 (h e h1)
    | some q =>
      have hq := Dfa.runE_lt hd hd.init_lt hr
      simp [Dfa.invert_state hq, Dfa.over_of_runE hr]
  refine ⟨hi, main, ?_⟩
  rw [C01_dfa_accepts_iff _ hi, main, ← Bool.not_eq_true, C01_dfa_accepts_iff _ hd]

/-- **C07** Only accepting flags change, and inverting twice restores the DFA. -/
theorem C07_invert_structure (d : Dfa) :
    d.invert.alphabet = d.alphabet ∧ d.invert.initialState = d.initialState ∧
    d.invert.states.length = d.states.length ∧
    (∀ (i : Nat) (t : DfaState), d.states[i]? = some t → d.invert.states[i]? = some { t with accepting := !t.accepting }) ∧
    d.invert.invert = d := by
  refine ⟨rfl, rfl, by simp [Dfa.invert], ?_, ?_⟩
  · intro i t h; simp [Dfa.invert, h]
  · simp [Dfa.invert, Function.comp_def]

example : oddA.WF ∧ oddA.invert.accepts [s 'a', s 'a'] = true ∧ oddA.invert.accepts [s 'a'] = false ∧
    oddA.invert.accepts [s 'z'] = false := ⟨oddA_wf, by decide, by decide, by decide⟩

/-! ## Instances of the theorems of this file -/

example := C01_dfa_accepts_iff Samples.redundant Samples.redundant_wf [Samples.s 'b', Samples.s 'a']
example := C01_dfa_rejects_foreign oddA oddA_wf [s 'a', s 'z'] (s 'z') (by decide) (by decide)
example := C03_history_accepting Samples.redundant Samples.redundant_wf [.step (Samples.s 'b'), .stepMultiple [Samples.s 'a', Samples.s
  'b']]
example := C03_history_state Samples.redundant Samples.redundant_wf [.step (Samples.s 'b'), .stepMultiple [Samples.s 'a', Samples.s 'b']]
example := C03_returned_state (DfaEval.new oddA) (s 'a') [s 'b', s 'z']
example := C03_step_multiple_empty_counterexample 
example := C06_dfa_step_all (DfaEval.new oddA)
example := C07_invert_complement Samples.redundant Samples.redundant_wf [Samples.s 'b', Samples.s 'a']

end Dandy
