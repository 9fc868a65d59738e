import Verif.Spec.Residual
import Verif.Props.DfaEvaluator
import Verif.Props.DfaMinimize
import Verif.Props.NfaToDfa
import Verif.Props.Regex
/-! # C131: how many states are needed -/

namespace Dandy
open Samples RegexTree

private theorem rest_run {m : Dfa} (hm : m.WF) {w : Word} {q : Nat} (h : m.Run m.initialState w q) :
    restOf m.accepts w = {v | ∃ r, m.Run q v r ∧ m.Acc r} := by
  have h0 := (Dfa.run_iff hm hm.init_lt).1 h
  have hq := Dfa.runE_lt hm hm.init_lt h0
  ext v
  change m.accepts (w ++ v) = true ↔ ∃ r, m.Run q v r ∧ m.Acc r
  rw [C01_dfa_accepts_iff m hm]
  constructor
  · rintro ⟨r, h1, h2⟩
    rw [Dfa.run_iff hm hm.init_lt, Dfa.runE_append, h0] at h1
    exact ⟨r, (Dfa.run_iff hm hq).2 h1, h2⟩
  · rintro ⟨r, h1, h2⟩
    refine ⟨r, ?_, h2⟩
    rw [Dfa.run_iff hm hm.init_lt, Dfa.runE_append, h0]
    exact (Dfa.run_iff hm hq).1 h1

private theorem run_exists {m : Dfa} (hm : m.WF) {w : Word} (h : Over m.alphabet w) : ∃ q, m.Run m.initialState w q ∧ q < m.states.length := by
  obtain ⟨q, hq⟩ := Dfa.runE_exists m.initialState h
  exact ⟨q, (Dfa.run_iff hm hm.init_lt).2 hq, Dfa.runE_lt hm hm.init_lt hq⟩

/-- **C131** The number of states that are left by `minimize` is the number of different ways in which words over the alphabet can be continued. -/
theorem C131_states (ordU ord ordKeys : List Nat → List Nat) (hU : ∀ l, (ordU l).Perm l) (hord : ∀ l, (ord l).Perm l)
    (hK : ∀ l, (ordKeys l).Perm l) (d m : Dfa) (hd : d.WF) (h : d.minimize ordU ord ordKeys = some m) :
    {R | ∃ w, Over d.alphabet w ∧ R = restOf d.accepts w}.Finite ∧
      {R | ∃ w, Over d.alphabet w ∧ R = restOf d.accepts w}.ncard = m.states.length := by
  classical
  obtain ⟨m', h1, hm, h3, h4, _⟩ := C16_minimize ordU ord ordKeys hU hord hK d hd
  rw [h] at h1
  cases h1
  obtain ⟨h5, h6⟩ := C16_minimize_reduced ordU ord ordKeys hU hord hK d m hd h
  have hacc : d.accepts = m.accepts := by
    funext w
    rw [Bool.eq_iff_iff, C01_dfa_accepts_iff d hd, C01_dfa_accepts_iff m hm, h4]
  have e : {R | ∃ w, Over d.alphabet w ∧ R = restOf d.accepts w} =
      (fun q => {v | ∃ r, m.Run q v r ∧ m.Acc r}) '' (Finset.range m.states.length : Set Nat) := by
    ext R
    rw [hacc, ← h3]
    constructor
    · rintro ⟨w, hw, rfl⟩
      obtain ⟨q, hq, hlt⟩ := run_exists hm hw
      exact ⟨q, by simpa using hlt, (rest_run hm hq).symm⟩
    · rintro ⟨q, hq, rfl⟩
      obtain ⟨w, hw⟩ := h5 q (by simpa using hq)
      exact ⟨w, Dfa.over_of_runE ((Dfa.run_iff hm hm.init_lt).1 hw), (rest_run hm hw).symm⟩
  rw [e]
  refine ⟨(Finset.finite_toSet _).image _, ?_⟩
  rw [Set.InjOn.ncard_image, Set.ncard_coe_finset, Finset.card_range]
  intro p hp q hq hpq
  refine h6 p (by simpa using hp) q (by simpa using hq) fun w => ?_
  exact Set.ext_iff.1 hpq w

example : (redundant.minimize id id id).map (fun m => m.states.length) = some 3 ∧ redundant.states.length = 6 := by decide

/-- **C131** Evaluators of the minimized DFA are in the same state exactly if what has been read can be continued in the same ways, in whatever
steps it has been read. -/
theorem C131_same_state (ordU ord ordKeys : List Nat → List Nat) (hU : ∀ l, (ordU l).Perm l) (hord : ∀ l, (ord l).Perm l)
    (hK : ∀ l, (ordKeys l).Perm l) (d m : Dfa) (hd : d.WF) (h : d.minimize ordU ord ordKeys = some m) (cs cs' : List StepCall)
    (hcs : Over d.alphabet (fedWord cs)) (hcs' : Over d.alphabet (fedWord cs')) :
    (dfaHistory m cs).currentStateIdx = (dfaHistory m cs').currentStateIdx ↔
      restOf d.accepts (fedWord cs) = restOf d.accepts (fedWord cs') := by
  obtain ⟨m', h1, hm, h3, h4, _⟩ := C16_minimize ordU ord ordKeys hU hord hK d hd
  rw [h] at h1
  cases h1
  obtain ⟨h5, h6⟩ := C16_minimize_reduced ordU ord ordKeys hU hord hK d m hd h
  have hacc : d.accepts = m.accepts := by
    funext w
    rw [Bool.eq_iff_iff, C01_dfa_accepts_iff d hd, C01_dfa_accepts_iff m hm, h4]
  rw [← h3] at hcs hcs'
  obtain ⟨q, hq, hlt⟩ := run_exists hm hcs
  obtain ⟨q', hq', hlt'⟩ := run_exists hm hcs'
  rw [((C03_history_state m hm cs).1 q hq).1, ((C03_history_state m hm cs').1 q' hq').1, hacc, rest_run hm hq, rest_run hm hq']
  constructor
  · rintro rfl
    rfl
  · intro he
    exact h6 q hlt q' hlt' fun w => Set.ext_iff.1 he w

example : ∃ m, redundant.minimize id id id = some m ∧ Over redundant.alphabet (fedWord [.step (s 'a')]) ∧
    (dfaHistory m [.step (s 'a')]).currentStateIdx ≠ (dfaHistory m []).currentStateIdx := ⟨_, rfl, by decide, by decide⟩

/-- **C131** Words that can be told apart by a continuation need as many states of a DFA. -/
theorem C131_dfa_lower (d : Dfa) (hd : d.WF) (ws : List Word) (hw : ∀ w ∈ ws, Over d.alphabet w)
    (h : ws.Pairwise (fun u v => ∃ x, d.accepts (u ++ x) ≠ d.accepts (v ++ x))) : ws.length ≤ d.states.length := by
  have : ∀ w : {w // w ∈ ws}, ∃ q, d.Run d.initialState w.1 q ∧ q < d.states.length := fun w => run_exists hd (hw w.1 w.2)
  choose f hf using this
  have hnd : (ws.attach.map f).Nodup := by
    rw [List.nodup_iff_pairwise_ne, List.pairwise_map, List.pairwise_iff_getElem]
    intro i j hi hj hij
    rw [List.length_attach] at hi hj
    obtain ⟨x, hx⟩ := List.pairwise_iff_getElem.1 h i j hi hj hij
    intro he
    rw [List.getElem_attach, List.getElem_attach] at he
    have e1 := rest_run hd (hf ⟨ws[i], List.getElem_mem hi⟩).1
    have e2 := rest_run hd (hf ⟨ws[j], List.getElem_mem hj⟩).1
    rw [he] at e1
    exact hx (Bool.eq_iff_iff.2 (Set.ext_iff.1 (e1.trans e2.symm) x))
  have hsub : (ws.attach.map f) ⊆ List.range d.states.length := by
    intro q hq
    rw [List.mem_map] at hq
    obtain ⟨w, _, rfl⟩ := hq
    exact List.mem_range.2 (hf w).2
  have := (List.subperm_of_subset hnd hsub).length_le
  rwa [List.length_map, List.length_attach, List.length_range] at this

example : redundant.WF ∧ [[], [s 'a'], [s 'a', s 'b']].Pairwise
    (fun u v => ∃ x ∈ [[], [s 'a'], [s 'b'], [s 'a', s 'b']], redundant.accepts (u ++ x) ≠ redundant.accepts (v ++ x)) :=
  ⟨redundant_wf, by decide⟩

/-- **C131** Pairs of words that fit together but not crosswise need as many states of an NFA, however it has been made. -/
theorem C131_nfa_lower (n : Nfa) (hn : n.WF) (ps : List (Word × Word)) (h : Fooling n.accepts ps) : ps.length ≤ n.states.length := by
  have : ∀ p : {p // p ∈ ps}, ∃ q, n.Path n.initialState p.1.1 q ∧ ∃ r, n.Path q p.1.2 r ∧ n.Acc r := by
    intro p
    obtain ⟨r, h1, h2⟩ := (C02_nfa_accepts_iff n hn _).1 (h.1 p.1 p.2)
    obtain ⟨q, h3, h4⟩ := Nfa.path_append.1 h1
    exact ⟨q, h3, r, h4, h2⟩
  choose f hf using this
  have hnd : (ps.attach.map f).Nodup := by
    rw [List.nodup_iff_pairwise_ne, List.pairwise_map, List.pairwise_iff_getElem]
    intro i j hi hj hij
    rw [List.length_attach] at hi hj
    have hx := List.pairwise_iff_getElem.1 h.2 i j hi hj hij
    intro he
    rw [List.getElem_attach, List.getElem_attach] at he
    obtain ⟨a1, r1, b1, c1⟩ := hf ⟨ps[i], List.getElem_mem hi⟩
    obtain ⟨a2, r2, b2, c2⟩ := hf ⟨ps[j], List.getElem_mem hj⟩
    refine hx ⟨(C02_nfa_accepts_iff n hn _).2 ⟨r2, Nfa.path_append.2 ⟨_, a1, ?_⟩, c2⟩,
      (C02_nfa_accepts_iff n hn _).2 ⟨r1, Nfa.path_append.2 ⟨_, a2, ?_⟩, c1⟩⟩
    · rw [he]; exact b2
    · rw [← he]; exact b1
  have hsub : (ps.attach.map f) ⊆ List.range n.states.length := by
    intro q hq
    rw [List.mem_map] at hq
    obtain ⟨p, _, rfl⟩ := hq
    exact List.mem_range.2 (Nfa.path_lt hn hn.init_lt (hf p).1)
  have := (List.subperm_of_subset hnd hsub).length_le
  rwa [List.length_map, List.length_attach, List.length_range] at this

/-- An NFA for the words with an odd number of `a` cannot have fewer than two states. -/
example : oddA.toNfa.WF ∧ Fooling oddA.toNfa.accepts [([], [s 'a']), ([s 'b', s 'a'], [s 'b'])] ∧
    (oddA.minimize id id id).map (fun m => m.toNfa.states.length) = some 2 :=
  ⟨(C18_to_nfa_lang oddA oddA_wf []).1, ⟨by decide, by decide⟩, by decide⟩

/-- **C131** So what cannot be described: an automaton with `n` states that accepts `aⁱbⁱ` for all `i` up to `n` accepts some `aⁱbʲ` with different
numbers too. -/
theorem C131_counting (n : Nfa) (hn : n.WF) (a b : Str) (h : ∀ i ≤ n.states.length, n.accepts (List.replicate i a ++ List.replicate i b) = true) :
    ∃ i ≤ n.states.length, ∃ j ≤ n.states.length, i ≠ j ∧ n.accepts (List.replicate i a ++ List.replicate j b) = true := by
  by_contra hc
  push Not at hc
  have := C131_nfa_lower n hn ((List.range (n.states.length + 1)).map fun i => (List.replicate i a, List.replicate i b)) ⟨?_, ?_⟩
  · rw [List.length_map, List.length_range] at this
    omega
  · intro p hp
    rw [List.mem_map] at hp
    obtain ⟨i, hi, rfl⟩ := hp
    rw [List.mem_range] at hi
    exact h i (by omega)
  · rw [List.pairwise_map, List.pairwise_iff_getElem]
    intro i j hi hj hij ⟨h1, _⟩
    rw [List.length_range] at hi hj
    rw [List.getElem_range, List.getElem_range] at h1
    exact hc i (by omega) j (by omega) (by omega) h1

/-- **C131** No expression, no DFA and no NFA accepts exactly the words `aⁿbⁿ`. -/
theorem C131_no_counting (a b : Str) (hab : a ≠ b) :
    (∀ e : RegexTree, ¬ ∀ w, (toNfa e).accepts w = true ↔ ∃ i, w = List.replicate i a ++ List.replicate i b) ∧
    (∀ d : Dfa, d.WF → ¬ ∀ w, d.accepts w = true ↔ ∃ i, w = List.replicate i a ++ List.replicate i b) ∧
    ∀ n : Nfa, n.WF → ¬ ∀ w, n.accepts w = true ↔ ∃ i, w = List.replicate i a ++ List.replicate i b := by
  have key : ∀ n : Nfa, n.WF → ¬ ∀ w, n.accepts w = true ↔ ∃ i, w = List.replicate i a ++ List.replicate i b := by
    intro n hn h
    obtain ⟨i, _, j, _, hij, hacc⟩ := C131_counting n hn a b (fun i _ => (h _).2 ⟨i, rfl⟩)
    obtain ⟨k, hk⟩ := (h _).1 hacc
    have e1 := congrArg (List.count a) hk
    have e2 := congrArg (List.count b) hk
    simp only [List.count_append, List.count_replicate, beq_iff_eq, hab, Ne.symm hab, if_true, if_false] at e1 e2
    omega
  refine ⟨fun e => key _ (toNfa_wf e), fun d hd h => ?_, key⟩
  refine key d.toNfa (C18_to_nfa_lang d hd []).1 fun w => ?_
  rw [(C18_to_nfa_lang d hd w).2.2]
  exact h w

/-- The hypothesis of `C131_counting` for an NFA that accepts everything over `a` and `b`. -/
example : ∃ n : Nfa, n.WF ∧ ∀ i ≤ n.states.length, n.accepts (List.replicate i (s 'a') ++ List.replicate i (s 'b')) = true :=
  ⟨⟨[s 'a', s 'b'], [⟨c!"p", true, true, [1], [[0], [0]]⟩, ⟨c!"q", false, true, [], [[], [1]]⟩], 0⟩, Nfa.wf_of_wfB (by decide), by decide⟩

end Dandy
