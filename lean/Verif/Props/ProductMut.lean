import Verif.Model.Chars
import Verif.Proofs.ProductMut
import Verif.Props.DfaProduct
import Verif.Props.NfaProduct
import Verif.Props.Samples
/-! # C90: how product constructions call the combinator -/

namespace Dandy
open Samples

private theorem pure_calls {τ α β : Type} (c : α → β) (t : τ) : ∀ l : List α, callAll (fun t a => (t, c a)) t l = (t, l.map c)
  | [] => rfl
  | a :: l => by simp [callAll, pure_calls c t l]

/-- **C90** The combinator of a product of DFAs over the same elements is called exactly once for every pair of states in which the two DFAs
are after some word, first for the initial states; which calls are made, and in which order, does not depend on the iteration order of the
hash set or on the answers. The i-th answer says whether state i of the result is accepting, where state i is the state after the words
leading to the pair of the i-th call. -/
theorem C90_dfa_calls {τ : Type} (d o : Dfa) (hd : d.WF) (ho : o.WF) (h : SameElems d.alphabet o.alphabet) :
    ∃ calls : List (DfaState × DfaState), calls.Nodup ∧
      (∃ s1 s2, d.states[d.initialState]? = some s1 ∧ o.states[o.initialState]? = some s2 ∧ calls.head? = some (s1, s2)) ∧
      (∀ s1 s2, (s1, s2) ∈ calls ↔ ∃ w q1 q2, d.Run d.initialState w q1 ∧ o.Run o.initialState w q2 ∧
        d.states[q1]? = some s1 ∧ o.states[q2]? = some s2) ∧
      ∀ (f : τ → DfaState → DfaState → τ × Bool) (t : τ) (ord : List (Nat × Nat) → List (Nat × Nat)), (∀ l, (ord l).Perm l) →
        ∃ p, Dfa.productMut ord d o f t = some ((callAll (fun t c => f t c.1 c.2) t calls).1, some p) ∧ p.WF ∧ p.alphabet = d.alphabet ∧
          p.initialState = 0 ∧ p.states.map (·.accepting) = (callAll (fun t c => f t c.1 c.2) t calls).2 ∧
          ∀ w i, p.Run p.initialState w i ↔ ∃ s1 s2 q1 q2, calls[i]? = some (s1, s2) ∧ d.Run d.initialState w q1 ∧ o.Run o.initialState w q2 ∧
            d.states[q1]? = some s1 ∧ o.states[q2]? = some s2 := by
  obtain ⟨ks, h1, h2, h3⟩ := Dfa.productMut_eq hd ho h
  have hb : ∀ k ∈ ks, k.1 < d.states.length ∧ k.2 < o.states.length := by
    intro k hk
    obtain ⟨w, e1, e2⟩ := (h1.mem_iff k).1 hk
    exact ⟨Dfa.runE_lt hd hd.init_lt e1, Dfa.runE_lt ho ho.init_lt e2⟩
  have hinj : ∀ j ∈ ks, ∀ k ∈ ks, (d.state j.1, o.state j.2) = (d.state k.1, o.state k.2) → j = k := by
    intro j hj k hk e
    rw [Prod.mk.injEq] at e
    exact Prod.ext (Dfa.state_inj hd (hb j hj).1 (hb k hk).1 e.1) (Dfa.state_inj ho (hb j hj).2 (hb k hk).2 e.2)
  refine ⟨ks.map (fun k => (d.state k.1, o.state k.2)), h1.nodup.map_on hinj,
    ⟨_, _, Dfa.getElem?_state hd.init_lt, Dfa.getElem?_state ho.init_lt, by rw [List.head?_map, h2]; rfl⟩, fun s1 s2 => ?_, fun f t ord hord => ?_⟩
  · rw [List.mem_map]
    constructor
    · rintro ⟨k, hk, e⟩
      cases e
      obtain ⟨w, e1, e2⟩ := (h1.mem_iff k).1 hk
      exact ⟨w, k.1, k.2, (Dfa.run_iff hd hd.init_lt).2 e1, (Dfa.run_iff ho ho.init_lt).2 e2, Dfa.getElem?_state (hb k hk).1,
        Dfa.getElem?_state (hb k hk).2⟩
    · rintro ⟨w, q1, q2, e1, e2, e3, e4⟩
      exact ⟨(q1, q2), (h1.mem_iff _).2 ⟨w, (Dfa.run_iff hd hd.init_lt).1 e1, (Dfa.run_iff ho ho.init_lt).1 e2⟩, by
        rw [Dfa.state_of_getElem? e3, Dfa.state_of_getElem? e4]⟩
  · obtain ⟨⟨comb, h4⟩, h5⟩ := h3 f t
    obtain ⟨g, h6, _, h7⟩ := h5 comb h4 ord hord
    have hwf := Dfa.prodOf_wf (comb := comb) hd h h1 h6
    have hq : (d.initialState, o.initialState) ∈ ks := List.mem_of_mem_head? h2
    have hinit : (Dfa.prodOf d o comb ks g).initialState = ks.idxOf (d.initialState, o.initialState) := rfl
    refine ⟨Dfa.prodOf d o comb ks g, by rw [h7, callAll_map], hwf, rfl, ?_, ?_, fun w i => ?_⟩
    · rw [hinit]
      cases ks with
      | nil => cases h2
      | cons k ks => cases h2; simp
    · rw [callAll_map, h4]
      simp [Dfa.prodOf]
    · rw [Dfa.run_iff hwf hwf.init_lt, hinit]
      constructor
      · intro e
        rcases Dfa.prodOf_runE (comb := comb) (g := g) hd h h1 w hq with ⟨_, e2⟩ | ⟨t1, t2, e1, e2, e3, e4⟩
        · rw [e] at e2; cases e2
        · rw [e] at e4
          cases e4
          refine ⟨d.state t1, o.state t2, t1, t2, ?_, (Dfa.run_iff hd hd.init_lt).2 e1, (Dfa.run_iff ho ho.init_lt).2 e2,
            Dfa.getElem?_state (hb _ e3).1, Dfa.getElem?_state (hb _ e3).2⟩
          rw [List.getElem?_map, List.getElem?_eq_getElem (List.idxOf_lt_length_iff.2 e3)]
          simp
      · rintro ⟨s1, s2, q1, q2, e0, e1, e2, e3, e4⟩
        rw [Dfa.run_iff hd hd.init_lt] at e1
        rw [Dfa.run_iff ho ho.init_lt] at e2
        rcases Dfa.prodOf_runE (comb := comb) (g := g) hd h h1 w hq with ⟨e5, _⟩ | ⟨t1, t2, e5, e6, e7, e8⟩
        · rw [e1] at e5; cases e5
        · rw [e1] at e5; rw [e2] at e6; cases e5; cases e6
          rw [e8]
          rw [List.getElem?_map, Option.map_eq_some_iff] at e0
          obtain ⟨k, e9, e10⟩ := e0
          rw [← Dfa.state_of_getElem? e3, ← Dfa.state_of_getElem? e4] at e10
          cases hinj k (List.mem_of_getElem? e9) _ e7 e10
          rw [Option.some.injEq]
          exact (List.getElem?_inj (List.idxOf_lt_length_iff.2 e7) h1.nodup).1 (by
            rw [e9, List.getElem?_eq_getElem (List.idxOf_lt_length_iff.2 e7)]; simp)

/-- A combinator that counts its calls in `t` and answers true to every second one. -/
def everySecond (t : Nat) (_ _ : DfaState) : Nat × Bool := (t + 1, t % 2 == 1)

example : SameElems oddA.alphabet endsB.alphabet := by intro x; simp [oddA, endsB, or_comm]

example : ∃ p, Dfa.productMut List.reverse oddA endsB everySecond 0 = some (4, some p) ∧
    p.states.map (·.accepting) = [false, true, false, true] := by
  refine ⟨_, rfl, by decide +kernel⟩

/-- The log of the calls: first the two initial states, the unreachable state `u` never. -/
example : (Dfa.productMut id oddA endsB (fun (t : List (Str × Str)) a b => (t ++ [(a.name, b.name)], false)) []).map (·.1) =
    some [(s 'e', s 'n'), (s 'e', s 'y'), (s 'o', s 'n'), (s 'o', s 'y')] := by decide +kernel

/-- **C90** If the alphabets differ, the combinator is not called at all. -/
theorem C90_dfa_none {τ : Type} (ord : List (Nat × Nat) → List (Nat × Nat)) (d o : Dfa) (hd : d.WF) (ho : o.WF)
    (h : ¬ SameElems d.alphabet o.alphabet) (f : τ → DfaState → DfaState → τ × Bool) (t : τ) : Dfa.productMut ord d o f t = some (t, none) := by
  have : alphabetEqual d.alphabet o.alphabet = false := by
    rw [← Bool.not_eq_true, alphabetEqual_iff hd.alphabet_nodup ho.alphabet_nodup]; exact h
  simp [Dfa.productMut, this]

example : Dfa.productMut id oddA overC everySecond 7 = some (7, none) := C90_dfa_none id oddA overC oddA_wf overC_wf
  (fun h => absurd ((h (s 'a')).1 (by decide)) (by decide)) everySecond 7

/-- **C90** A combinator without a state gives what C08 to C10 are about. -/
theorem C90_dfa_pure {τ : Type} (ord : List (Nat × Nat) → List (Nat × Nat)) (hord : ∀ l, (ord l).Perm l) (d o : Dfa) (hd : d.WF) (ho : o.WF)
    (comb : DfaState → DfaState → Bool) (t : τ) :
    Dfa.productMut ord d o (fun t s1 s2 => (t, comb s1 s2)) t = (Dfa.product ord d o comb).map (fun r => (t, r)) := by
  by_cases h : SameElems d.alphabet o.alphabet
  · obtain ⟨ks, _, _, h3⟩ := Dfa.productMut_eq hd ho h
    obtain ⟨_, h4⟩ := h3 (fun (t : τ) s1 s2 => (t, comb s1 s2)) t
    obtain ⟨g, _, h5, h6⟩ := h4 comb (by rw [pure_calls (fun k : Nat × Nat => comb (d.state k.1) (o.state k.2))]) ord hord
    rw [h5, h6, pure_calls (fun k : Nat × Nat => comb (d.state k.1) (o.state k.2))]
    rfl
  · rw [C90_dfa_none ord d o hd ho h, (C08_product_none_iff ord hord d o hd ho comb).2.2 h]
    rfl

example : (Dfa.productMut id oddA endsB (fun (t : Nat) a b => (t, a.accepting && b.accepting)) 3).map (·.1) = some 3 := by
  rw [C90_dfa_pure id (fun _ => .refl _) oddA endsB oddA_wf endsB_wf (fun a b => a.accepting && b.accepting) 3]
  decide +kernel

/-- **C90** The same for NFAs: one call for every pair of outcomes of runs on the same word, except two `none`s. -/
theorem C90_nfa_calls {τ : Type} (n o : Nfa) (hn : n.WF) (ho : o.WF) (h : SameElems n.alphabet o.alphabet) :
    ∃ calls : List (Option NfaState × Option NfaState), calls.Nodup ∧
      calls.head? = some (n.states[n.initialState]?, o.states[o.initialState]?) ∧
      (∀ s1 s2, (s1, s2) ∈ calls ↔ (s1 ≠ none ∨ s2 ≠ none) ∧ ∃ w, n.Outcome w s1 ∧ o.Outcome w s2) ∧
      ∀ (f : τ → Option NfaState → Option NfaState → τ × Bool) (t : τ) (ord : List Nfa.OPair → List Nfa.OPair), (∀ l, (ord l).Perm l) →
        ∃ p, Nfa.productMut ord n o f t = some ((callAll (fun t c => f t c.1 c.2) t calls).1, some p) ∧ p.WF ∧ p.alphabet = n.alphabet ∧
          p.initialState = 0 ∧ p.states.map (·.accepting) = (callAll (fun t c => f t c.1 c.2) t calls).2 ∧
          ∀ w i, p.Path p.initialState w i ↔ ∃ s1 s2, calls[i]? = some (s1, s2) ∧ n.Outcome w s1 ∧ o.Outcome w s2 := by
  obtain ⟨ks, h1, h2, h3⟩ := Nfa.productMut_eq hn ho h
  have hb := fun k hk => Nfa.keys_bound (k := k) hn ho h h1 hk
  have hinj : ∀ j ∈ ks, ∀ k ∈ ks, (j.1.map n.state, j.2.map o.state) = (k.1.map n.state, k.2.map o.state) → j = k := by
    intro j hj k hk e
    rw [Prod.mk.injEq] at e
    exact Prod.ext (Nfa.opt_inj hn (hb j hj).1 (hb k hk).1 e.1) (Nfa.opt_inj ho (hb j hj).2 (hb k hk).2 e.2)
  have hp0 : Nfa.pinit n o ≠ (none, none) := by simp [Nfa.pinit]
  refine ⟨ks.map (fun k => (k.1.map n.state, k.2.map o.state)), h1.nodup.map_on hinj, ?_, fun s1 s2 => ?_, fun f t ord hord => ?_⟩
  · rw [List.head?_map, h2, Nfa.getElem?_state hn.init_lt, Nfa.getElem?_state ho.init_lt]
    rfl
  · rw [List.mem_map]
    constructor
    · rintro ⟨k, hk, e⟩
      obtain ⟨w, hw⟩ := Nfa.psucc_ppath hn ho h ((h1.mem_iff k).1 hk)
      obtain ⟨e1, e2, e3⟩ := Nfa.ppath_out hw hp0
      cases e
      refine ⟨?_, w, (nfa_outcome_iff hn).2 ⟨_, e1, rfl⟩, (nfa_outcome_iff ho).2 ⟨_, e2, rfl⟩⟩
      by_contra hc
      simp only [not_or, not_not, ne_eq, Option.map_eq_none_iff] at hc
      exact e3 (Prod.ext hc.1 hc.2)
    · rintro ⟨hne, w, e1, e2⟩
      obtain ⟨a, f1, rfl⟩ := (nfa_outcome_iff hn).1 e1
      obtain ⟨b, f2, rfl⟩ := (nfa_outcome_iff ho).1 e2
      refine ⟨(a, b), Nfa.ppath_mem hn ho h h1 h1.init (Nfa.ppath_of_out f1 f2 ?_), rfl⟩
      intro hc
      cases hc
      simp at hne
  · obtain ⟨⟨comb, h4⟩, h5⟩ := h3 f t
    obtain ⟨g, h6, _, h7⟩ := h5 comb h4 ord hord
    have hwf := Nfa.prodN_wf (comb := comb) hn h1 h6
    have hinit : (Nfa.prodN n o comb ks g).initialState = ks.idxOf (Nfa.pinit n o) := rfl
    refine ⟨Nfa.prodN n o comb ks g, by rw [h7, callAll_map], hwf, rfl, ?_, ?_, fun w i => ?_⟩
    · rw [hinit]
      cases ks with
      | nil => cases h2
      | cons k ks => cases h2; simp
    · rw [callAll_map, h4]
      simp [Nfa.prodN]
    · rw [hinit, Nfa.prodN_path hn ho h h1 h1.init]
      constructor
      · rintro ⟨k, hk, rfl, hw⟩
        obtain ⟨e1, e2, e3⟩ := Nfa.ppath_out hw hp0
        refine ⟨_, _, ?_, (nfa_outcome_iff hn).2 ⟨_, e1, rfl⟩, (nfa_outcome_iff ho).2 ⟨_, e2, rfl⟩⟩
        rw [List.getElem?_map, List.getElem?_eq_getElem (List.idxOf_lt_length_iff.2 hk)]
        simp
      · rintro ⟨s1, s2, e0, e1, e2⟩
        obtain ⟨a, f1, rfl⟩ := (nfa_outcome_iff hn).1 e1
        obtain ⟨b, f2, rfl⟩ := (nfa_outcome_iff ho).1 e2
        rw [List.getElem?_map, Option.map_eq_some_iff] at e0
        obtain ⟨k, e9, e10⟩ := e0
        have hk := List.mem_of_getElem? e9
        have hnn : (a, b) ≠ ((none, none) : Nfa.OPair) := by
          intro hc
          cases hc
          obtain ⟨w', hw'⟩ := Nfa.psucc_ppath hn ho h ((h1.mem_iff k).1 hk)
          obtain ⟨_, _, e3⟩ := Nfa.ppath_out hw' hp0
          simp only [Option.map_none, Prod.mk.injEq, Option.map_eq_none_iff] at e10
          exact e3 (Prod.ext e10.1 e10.2)
        have hpp := Nfa.ppath_of_out f1 f2 hnn
        have hm := Nfa.ppath_mem hn ho h h1 h1.init hpp
        have := hinj k hk _ hm e10
        subst k
        refine ⟨(a, b), hm, ?_, hpp⟩
        exact (List.getElem?_inj (List.getElem?_eq_some_iff.1 e9).1 h1.nodup).1 (by
            rw [e9, List.getElem?_eq_getElem (List.idxOf_lt_length_iff.2 hm)]; simp)

/-- An NFA for the word `b`, and one for words of `b`s; the first gets stuck after two `b`s. -/
def oneB : Nfa := ⟨[s 'a', s 'b'], [⟨s '0', true, false, [], [[], [1]]⟩, ⟨s '1', false, true, [], [[], []]⟩], 0⟩
/-- Words of `b`s, over the same elements in another order. -/
def manyB : Nfa := ⟨[s 'b', s 'a'], [⟨s 'x', true, true, [], [[0], []]⟩], 0⟩

example : oneB.WF ∧ manyB.WF ∧ SameElems oneB.alphabet manyB.alphabet :=
  ⟨Nfa.wf_of_wfB (by decide), Nfa.wf_of_wfB (by decide), by intro x; simp [oneB, manyB, or_comm]⟩

/-- The log of the calls, in order: never with two `none`s. -/
example : (Nfa.productMut id oneB manyB (fun (t : List (Option Str × Option Str)) a b => (t ++ [(a.map (·.name), b.map (·.name))], t.length % 2 == 1)) []).map
    (fun r => (r.1, r.2.map (fun p => p.states.map (·.accepting)))) =
    some ([(some (s '0'), some (s 'x')), (some (s '1'), some (s 'x')), (none, some (s 'x'))], some [false, true, false]) := by decide +kernel

/-- **C90** If the alphabets differ, the combinator is not called at all. -/
theorem C90_nfa_none {τ : Type} (ord : List Nfa.OPair → List Nfa.OPair) (n o : Nfa) (hn : n.WF) (ho : o.WF)
    (h : ¬ SameElems n.alphabet o.alphabet) (f : τ → Option NfaState → Option NfaState → τ × Bool) (t : τ) :
    Nfa.productMut ord n o f t = some (t, none) := by
  have : alphabetEqual n.alphabet o.alphabet = false := by
    rw [← Bool.not_eq_true, alphabetEqual_iff hn.alphabet_nodup ho.alphabet_nodup]; exact h
  simp [Nfa.productMut, this]

example : Nfa.productMut id oneB nfaC (fun (t : Nat) _ _ => (t + 1, true)) 7 = some (7, none) :=
  C90_nfa_none id oneB nfaC (Nfa.wf_of_wfB (by decide)) nfaC_wf (fun h => absurd ((h (s 'a')).1 (by decide)) (by decide)) _ 7

/-- **C90** A combinator without a state gives what C22 to C24 are about. -/
theorem C90_nfa_pure {τ : Type} (ord : List Nfa.OPair → List Nfa.OPair) (hord : ∀ l, (ord l).Perm l) (n o : Nfa) (hn : n.WF) (ho : o.WF)
    (comb : Option NfaState → Option NfaState → Bool) (t : τ) :
    Nfa.productMut ord n o (fun t s1 s2 => (t, comb s1 s2)) t = (Nfa.product ord n o comb).map (fun r => (t, r)) := by
  by_cases h : SameElems n.alphabet o.alphabet
  · obtain ⟨ks, _, _, h3⟩ := Nfa.productMut_eq hn ho h
    obtain ⟨_, h4⟩ := h3 (fun (t : τ) s1 s2 => (t, comb s1 s2)) t
    obtain ⟨g, _, h5, h6⟩ := h4 comb (by rw [pure_calls (fun k : Nfa.OPair => comb (k.1.map n.state) (k.2.map o.state))]) ord hord
    rw [h5, h6, pure_calls (fun k : Nfa.OPair => comb (k.1.map n.state) (k.2.map o.state))]
    rfl
  · rw [C90_nfa_none ord n o hn ho h, (C23_product_none_iff ord hord n o hn ho comb).2.2 h]
    rfl

example : (Nfa.productMut id oneB manyB (fun (t : Nat) a b => (t, a.isNone && b.isSome)) 3).map (·.1) = some 3 := by
  rw [C90_nfa_pure id (fun _ => .refl _) oneB manyB (Nfa.wf_of_wfB (by decide)) (Nfa.wf_of_wfB (by decide)) (fun a b => a.isNone && b.isSome) 3]
  decide +kernel

end Dandy
