import Verif.Spec.Observe
import Verif.Props.DfaProduct
import Verif.Props.DfaMinimize
import Verif.Props.NfaToDfa
import Verif.Props.NfaEps
/-! # C117: evaluators tell automata apart exactly if they are not equivalent -/

namespace Dandy
open Samples

private theorem dfaHistory_snoc (d : Dfa) (h : List StepCall) (c : StepCall) : dfaHistory d (h ++ [c]) = c.runDfa (dfaHistory d h) := by
  simp [dfaHistory]

private theorem nfaHistory_snoc (n : Nfa) (h : List StepCall) (c : StepCall) : nfaHistory n (h ++ [c]) = c.runNfa (nfaHistory n h) := by
  simp [nfaHistory]

private theorem fedWord_snoc (h : List StepCall) (c : StepCall) : fedWord (h ++ [c]) = fedWord h ++ c.fed := by
  simp [fedWord]

private theorem nfaHistory_nfa (n : Nfa) (h : List StepCall) : (nfaHistory n h).nfa = n := by
  have inv := nfaHistory_inv n h n.iset
  cases hr : n.setE n.iset (fedWord h) with
  | none => obtain ⟨T, hT⟩ := inv.2 hr; show (List.foldl _ _ _ : NfaEval).nfa = n; exact congrArg NfaEval.nfa hT
  | some T => exact congrArg NfaEval.nfa (inv.1 T hr)

/-- When a call on a DFA evaluator returns something. -/
private theorem okDfa_iff (d : Dfa) (hd : d.WF) (h : List StepCall) (c : StepCall) :
    c.okDfa (dfaHistory d h) = true ↔ c = .stepMultiple [] ∨ ∀ e ∈ fedWord (h ++ [c]), e ∈ d.alphabet := by
  have key : (dfaHistory d (h ++ [c])).currentState.isSome = true ↔ ∀ e ∈ fedWord (h ++ [c]), e ∈ d.alphabet := by
    rw [← not_iff_not, Bool.not_eq_true, Option.isSome_eq_false_iff, Option.isNone_iff_eq_none, (C03_history_state d hd (h ++ [c])).2]
    push Not
    rfl
  rw [← key, dfaHistory_snoc]
  generalize dfaHistory d h = ev
  cases c with
  | step e => simp only [StepCall.okDfa, StepCall.runDfa, (C03_returned_state ev e []).1, reduceCtorEq, false_or]
  | stepMultiple es =>
    cases es with
    | nil => simp [StepCall.okDfa, DfaEval.stepMultiple, DfaEval.tryForEach]
    | cons e es => simp only [StepCall.okDfa, StepCall.runDfa, (C03_returned_state ev e es).2, StepCall.stepMultiple.injEq, reduceCtorEq, false_or]

/-- When a call on an NFA evaluator returns something. -/
private theorem okNfa_iff (n : Nfa) (h : List StepCall) (c : StepCall) :
    c.okNfa (nfaHistory n h) = true ↔ ∀ e ∈ c.fed, e ∈ n.alphabet := by
  have hs : ∀ x : Option Unit, x.isSome = true ↔ x = some () := by intro x; cases x <;> simp
  have h1 := fun e es => C04_nfa_step_result (nfaHistory n h) e es
  rw [nfaHistory_nfa] at h1
  cases c with
  | step e => simp only [StepCall.okNfa, StepCall.fed, hs, (h1 e []).1, List.mem_singleton, forall_eq]
  | stepMultiple es => simp only [StepCall.okNfa, StepCall.fed, hs, (h1 [] es).2]; rfl

private theorem seenDfa_congr {d o : Dfa} (hd : d.WF) (ho : o.WF) (hs : SameElems d.alphabet o.alphabet) (hL : ∀ w, d.Lang w ↔ o.Lang w)
    (cs h : List StepCall) : seenDfa (dfaHistory d h) cs = seenDfa (dfaHistory o h) cs := by
  induction cs generalizing h with
  | nil => rfl
  | cons c cs ih =>
    simp only [seenDfa, ← dfaHistory_snoc]
    rw [ih, Bool.eq_iff_iff.2 (show c.okDfa (dfaHistory d h) = true ↔ c.okDfa (dfaHistory o h) = true by
      rw [okDfa_iff d hd, okDfa_iff o ho]; simp only [hs _]),
      Bool.eq_iff_iff.2 (show (dfaHistory d (h ++ [c])).isAccepting = true ↔ (dfaHistory o (h ++ [c])).isAccepting = true by
        rw [(C03_history_accepting d hd _).1, (C03_history_accepting o ho _).1, hL])]

private theorem seenNfa_congr {n o : Nfa} (hn : n.WF) (ho : o.WF) (hs : SameElems n.alphabet o.alphabet) (hL : ∀ w, n.Lang w ↔ o.Lang w)
    (cs h : List StepCall) : seenNfa (nfaHistory n h) cs = seenNfa (nfaHistory o h) cs := by
  induction cs generalizing h with
  | nil => rfl
  | cons c cs ih =>
    simp only [seenNfa, ← nfaHistory_snoc]
    rw [ih, Bool.eq_iff_iff.2 (show c.okNfa (nfaHistory n h) = true ↔ c.okNfa (nfaHistory o h) = true by
      rw [okNfa_iff n, okNfa_iff o]; simp only [hs _]),
      Bool.eq_iff_iff.2 (show (nfaHistory n (h ++ [c])).isAccepting = true ↔ (nfaHistory o (h ++ [c])).isAccepting = true by
        rw [(C04_nfa_history_accepting n hn _).1, (C04_nfa_history_accepting o ho _).1, hL])]

/-- **C117** `equivalent_to` says yes exactly if nothing done with evaluators of the two DFAs tells them apart: for all sequences of `step` and
`step_multiple`, with known and unknown elements, the same calls return something and the evaluators accept at the same moments. -/
theorem C117_dfa (d o : Dfa) (hd : d.WF) (ho : o.WF) :
    d.equivalentTo o = some true ↔ ∀ cs, seenDfa (DfaEval.new d) cs = seenDfa (DfaEval.new o) cs := by
  rw [(C11_dfa_equivalent_to d o hd ho).2]
  constructor
  · exact fun h cs => seenDfa_congr hd ho h.1 h.2 cs []
  · intro h
    refine ⟨fun e => ?_, fun w => ?_⟩
    · have := h [.step e]
      simp only [seenDfa, List.cons.injEq, Prod.mk.injEq] at this
      have h1 := okDfa_iff d hd [] (.step e)
      have h2 := okDfa_iff o ho [] (.step e)
      simp only [fedWord, List.nil_append, List.flatMap_cons, List.flatMap_nil, StepCall.fed, List.append_nil, List.mem_singleton,
        forall_eq, reduceCtorEq, false_or] at h1 h2
      rw [← h1, ← h2]
      exact iff_of_eq (congrArg (· = true) this.1.1)
    · have := h [.stepMultiple w]
      simp only [seenDfa, List.cons.injEq, Prod.mk.injEq] at this
      have h1 := (C03_history_accepting d hd [.stepMultiple w]).1
      have h2 := (C03_history_accepting o ho [.stepMultiple w]).1
      simp only [fedWord, List.flatMap_cons, List.flatMap_nil, StepCall.fed, List.append_nil] at h1 h2
      rw [← h1, ← h2]
      exact iff_of_eq (congrArg (· = true) this.1.2)

/-- **C117** The same for NFAs. -/
theorem C117_nfa (n o : Nfa) (hn : n.WF) (ho : o.WF) :
    n.equivalentTo o = some true ↔ ∀ cs, seenNfa (NfaEval.new n) cs = seenNfa (NfaEval.new o) cs := by
  obtain ⟨b, hb, hiff⟩ := C20_nfa_equivalent_to n o hn ho
  rw [hb, Option.some.injEq, hiff]
  constructor
  · exact fun h cs => seenNfa_congr hn ho h.1 h.2 cs []
  · intro h
    refine ⟨fun e => ?_, fun w => ?_⟩
    · have := h [.step e]
      simp only [seenNfa, List.cons.injEq, Prod.mk.injEq] at this
      have h1 := okNfa_iff n [] (.step e)
      have h2 := okNfa_iff o [] (.step e)
      simp only [StepCall.fed, List.mem_singleton, forall_eq] at h1 h2
      rw [← h1, ← h2]
      exact iff_of_eq (congrArg (· = true) this.1.1)
    · have := h [.stepMultiple w]
      simp only [seenNfa, List.cons.injEq, Prod.mk.injEq] at this
      have h1 := (C04_nfa_history_accepting n hn [.stepMultiple w]).1
      have h2 := (C04_nfa_history_accepting o ho [.stepMultiple w]).1
      simp only [fedWord, List.flatMap_cons, List.flatMap_nil, StepCall.fed, List.append_nil] at h1 h2
      rw [← h1, ← h2]
      exact iff_of_eq (congrArg (· = true) this.1.2)

/-- A run with an unknown element `z`; and a single call that tells `oddA` from its inverse. -/
example : seenDfa (DfaEval.new oddA) [.step (s 'a'), .stepMultiple [s 'b', s 'a'], .step (s 'z'), .step (s 'a'), .stepMultiple []] =
      [(true, true), (true, false), (false, false), (false, false), (true, false)] ∧
    seenDfa (DfaEval.new oddA) [.stepMultiple []] ≠ seenDfa (DfaEval.new oddA.invert) [.stepMultiple []] := by
  decide

/-- **C117** Minimizing a DFA, and removing epsilon moves from an NFA or optimizing it, is not seen by anybody who runs it. -/
theorem C117_simplified (ordU ord ordK : List Nat → List Nat) (hU : ∀ l, (ordU l).Perm l) (hord : ∀ l, (ord l).Perm l)
    (hK : ∀ l, (ordK l).Perm l) (ordT : Nat → Nat → List Nat → List Nat) (hT : ∀ s c l, (ordT s c l).Perm l) (d : Dfa) (hd : d.WF)
    (n : Nfa) (hn : n.WF) (cs : List StepCall) :
    (∃ m, d.minimize ordU ord ordK = some m ∧ seenDfa (DfaEval.new m) cs = seenDfa (DfaEval.new d) cs) ∧
    (∃ m, n.removeEpsilonMoves ordT ord = some m ∧ seenNfa (NfaEval.new m) cs = seenNfa (NfaEval.new n) cs) ∧
    (∃ m, n.optimize ordU ordT ord = some m ∧ seenNfa (NfaEval.new m) cs = seenNfa (NfaEval.new n) cs) := by
  refine ⟨?_, ?_, ?_⟩
  · obtain ⟨m, h1, h2, h3, h4, _⟩ := C16_minimize ordU ord ordK hU hord hK d hd
    exact ⟨m, h1, seenDfa_congr h2 hd (by rw [h3]; intro e; rfl) h4 cs []⟩
  · obtain ⟨m, h1, h2, h3, _, _, h4, _⟩ := C25_remove_epsilon_moves ordT hT ord hord n hn
    exact ⟨m, h1, seenNfa_congr h2 hn (by rw [h3]; intro e; rfl) h4 cs []⟩
  · obtain ⟨m, h1, h2, h3, _, h4, _⟩ := C28_optimize ordU hU ordT hT ord hord n hn
    exact ⟨m, h1, seenNfa_congr h2 hn (by rw [h3]; intro e; rfl) h4 cs []⟩

example : ∃ m, epsNfa.removeEpsilonMoves (fun _ _ l => l) id = some m ∧
    seenNfa (NfaEval.new m) [.step (s 'a'), .step (s 'b')] = [(true, false), (true, true)] ∧
    seenNfa (NfaEval.new epsNfa) [.step (s 'a'), .step (s 'b')] = [(true, false), (true, true)] := by
  refine ⟨_, rfl, by decide +kernel, by decide +kernel⟩

private theorem seenMixed {d : Dfa} {n : Nfa} (hd : d.WF) (hn : n.WF) (hs : SameElems d.alphabet n.alphabet) (hL : ∀ w, n.Lang w ↔ d.Lang w)
    (cs : List StepCall) (h : List StepCall) :
    (seenDfa (dfaHistory d h) cs).map Prod.snd = (seenNfa (nfaHistory n h) cs).map Prod.snd ∧
    ((∀ e ∈ fedWord (h ++ cs.dropLast), e ∈ d.alphabet) → seenDfa (dfaHistory d h) cs = seenNfa (nfaHistory n h) cs) := by
  induction cs generalizing h with
  | nil => simp [seenDfa, seenNfa]
  | cons c cs ih =>
    have hacc : (dfaHistory d (h ++ [c])).isAccepting = (nfaHistory n (h ++ [c])).isAccepting := by
      rw [Bool.eq_iff_iff, (C03_history_accepting d hd _).1, (C04_nfa_history_accepting n hn _).1, hL]
    simp only [seenDfa, seenNfa, ← dfaHistory_snoc, ← nfaHistory_snoc, List.map_cons]
    refine ⟨by rw [hacc, (ih (h ++ [c])).1], fun hk => ?_⟩
    have hh : ∀ e ∈ fedWord h, e ∈ d.alphabet := fun e he => hk e (by
      simp only [fedWord, List.flatMap_append, List.mem_append]; exact .inl he)
    have hok : c.okDfa (dfaHistory d h) = c.okNfa (nfaHistory n h) := by
      rw [Bool.eq_iff_iff, okDfa_iff d hd, okNfa_iff, fedWord_snoc]
      constructor
      · rintro (rfl | h1) e he
        · cases he
        · exact (hs e).1 (h1 e (List.mem_append_right _ he))
      · refine fun h1 => .inr fun e he => ?_
        rcases List.mem_append.1 he with he | he
        · exact hh e he
        · exact (hs e).2 (h1 e he)
    rw [hok, hacc]
    cases cs with
    | nil => rfl
    | cons c' cs =>
      rw [(ih (h ++ [c])).2 (by simpa [List.dropLast] using hk)]

/-- **C117** Running a DFA and running the NFA made of it, or an NFA and the DFA made of it, is the same for all words: the evaluators accept at
the same moments, whatever is fed; and until the first call with an unknown element, it included, the same calls return something. -/
theorem C117_converted (d : Dfa) (hd : d.WF) (n : Nfa) (hn : n.WF) (cs : List StepCall) :
    ((seenNfa (NfaEval.new d.toNfa) cs).map Prod.snd = (seenDfa (DfaEval.new d) cs).map Prod.snd ∧
      ((∀ e ∈ fedWord cs.dropLast, e ∈ d.alphabet) → seenNfa (NfaEval.new d.toNfa) cs = seenDfa (DfaEval.new d) cs)) ∧
    ∃ t, n.toDfa = some t ∧
      (seenDfa (DfaEval.new t) cs).map Prod.snd = (seenNfa (NfaEval.new n) cs).map Prod.snd ∧
      ((∀ e ∈ fedWord cs.dropLast, e ∈ n.alphabet) → seenDfa (DfaEval.new t) cs = seenNfa (NfaEval.new n) cs) := by
  constructor
  · have := seenMixed hd (C18_to_nfa_lang d hd []).1 (by intro e; rfl) (fun w => (C18_to_nfa_lang d hd w).2.1) cs []
    exact ⟨this.1.symm, fun h => (this.2 h).symm⟩
  · obtain ⟨t, h1, h2, h3, h4, _⟩ := C19_to_dfa n hn
    have := seenMixed h2 hn (by rw [h3]; intro e; rfl) (fun w => (h4 w).symm) cs []
    exact ⟨t, h1, this.1, fun h => this.2 (by rw [h3]; exact h)⟩

example : (∀ e ∈ fedWord [StepCall.step (s 'a'), .step (s 'z')].dropLast, e ∈ oddA.alphabet) ∧
    seenDfa (DfaEval.new oddA) [.step (s 'a'), .step (s 'z')] = [(true, true), (false, false)] ∧
    seenNfa (NfaEval.new oddA.toNfa) [.step (s 'a'), .step (s 'z')] = [(true, true), (false, false)] := by
  decide

/-- **C117 (deviation)** After an unknown element it is not the same: `step` of a DFA evaluator returns nothing any more, while `step` of an NFA
evaluator returns something again for the next known element (although it will never accept). -/
theorem C117_after_unknown_false :
    ¬ ∀ (d : Dfa), d.WF → ∀ cs, seenNfa (NfaEval.new d.toNfa) cs = seenDfa (DfaEval.new d) cs := by
  intro h
  exact absurd (h oddA oddA_wf [.step (s 'z'), .step (s 'a')]) (by decide)

/-! ## Instances of the theorems of this file -/

example := C117_dfa Samples.redundant Samples.oddA Samples.redundant_wf Samples.oddA_wf

end Dandy
