import Verif.Proofs.Combined
import Verif.Props.DfaProduct
import Verif.Props.DfaEvaluator
import Verif.Props.NfaProduct
import Verif.Props.NfaEvaluator
import Verif.Props.Words
import Verif.Props.Samples
/-! # C116: the enumeration of a combination from the enumerations of the operands -/

namespace Dandy
open Samples Cli

private theorem toNfa_facts {d : Dfa} (hd : d.WF) :
    d.toNfa.WF ∧ (∀ w, d.toNfa.Lang w ↔ d.Lang w) ∧ ∀ s ∈ d.toNfa.states, s.epsilonTransitions = [] := by
  refine ⟨(C18_to_nfa_lang d hd []).1, fun w => (C18_to_nfa_lang d hd w).2.1, ?_⟩
  have := (C18_to_nfa_structure d).1
  simpa [Nfa.hasEpsilonMoves] using this

/-- **C116** Leaving out of the enumeration of the first DFA the words that the second does not accept gives exactly the enumeration of the
intersection, and leaving out those it accepts exactly the enumeration of the difference: the same words in the same order, with nothing
missing before the last of them, and the end is signalled where the first DFA's enumeration ends. -/
theorem C116_filtered (ord : List (Nat × Nat) → List (Nat × Nat)) (hord : ∀ l, (ord l).Perm l) (d o : Dfa) (hd : d.WF) (ho : o.WF)
    (hs : SameElems d.alphabet o.alphabet) (k : Nat) :
    ∃ rs p q, d.toNfa.wordComponents k = some rs ∧ Dfa.intersection ord d o = some (some p) ∧ Dfa.difference ord d o = some (some q) ∧
      p.toNfa.wordComponents (keepWords o.accepts rs).length = some (keepWords o.accepts rs) ∧
      q.toNfa.wordComponents (keepWords (fun w => !o.accepts w) rs).length = some (keepWords (fun w => !o.accepts w) rs) := by
  obtain ⟨_, ⟨p, p1, p2, p3, p4⟩, ⟨q, q1, q2, q3, q4⟩, _⟩ := (C09_dfa_set_operations ord hord d o hd ho).2 hs
  obtain ⟨hn, hL, he⟩ := toNfa_facts hd
  have H : ∀ (x : Dfa) (P : Word → Bool), x.WF → x.alphabet = d.alphabet → (∀ w, x.Lang w ↔ d.Lang w ∧ P w = true) →
      ∃ rs, d.toNfa.wordComponents k = some rs ∧ x.toNfa.wordComponents (keepWords P rs).length = some (keepWords P rs) := by
    intro x P hx ha hP
    obtain ⟨gn, gL, ge⟩ := toNfa_facts hx
    exact wordComponents_keep hn gn he ge ha P (fun w => by rw [gL, hL, hP]) k
  obtain ⟨rs, h1, h2⟩ := H p o.accepts p2 p3 (fun w => by rw [p4, C01_dfa_accepts_iff o ho])
  obtain ⟨rs', h1', h3⟩ := H q (fun w => !o.accepts w) q2 q3 (fun w => by
    rw [q4, ← C01_dfa_accepts_iff o ho, Bool.not_eq_true, Bool.not_eq_true'])
  rw [h1] at h1'
  cases h1'
  exact ⟨rs, p, q, h1, p1, q1, h2, h3⟩

/-- The first seven words with an odd number of `a`s; three of them end with `b`. -/
example : ∃ rs p, oddA.toNfa.wordComponents 7 = some rs ∧ Dfa.intersection id oddA endsB = some (some p) ∧
    keepWords endsB.accepts rs = [some [s 'a', s 'b'], some [s 'a', s 'b', s 'b'], some [s 'b', s 'a', s 'b']] ∧
    p.toNfa.wordComponents 3 = some [some [s 'a', s 'b'], some [s 'a', s 'b', s 'b'], some [s 'b', s 'a', s 'b']] := by
  obtain ⟨rs, p, _, h1, h2, _, h3, _⟩ := C116_filtered id (fun _ => .refl _) oddA endsB oddA_wf endsB_wf
    (by intro e; simp [oddA, endsB, or_comm]) 7
  have h4 : oddA.toNfa.wordComponents 7 = some [some [s 'a'], some [s 'a', s 'b'], some [s 'b', s 'a'], some [s 'a', s 'a', s 'a'],
    some [s 'a', s 'b', s 'b'], some [s 'b', s 'a', s 'b'], some [s 'b', s 'b', s 'a']] := by decide +kernel
  rw [h4] at h1
  cases h1
  have h5 : keepWords endsB.accepts [some [s 'a'], some [s 'a', s 'b'], some [s 'b', s 'a'], some [s 'a', s 'a', s 'a'],
    some [s 'a', s 'b', s 'b'], some [s 'b', s 'a', s 'b'], some [s 'b', s 'b', s 'a']] =
    [some [s 'a', s 'b'], some [s 'a', s 'b', s 'b'], some [s 'b', s 'a', s 'b']] := by decide +kernel
  rw [h5] at h3
  exact ⟨_, p, h4, h2, h5, h3⟩

/-- **C116** The same for NFAs without epsilon moves (and their intersection without epsilon moves; the second may have any). -/
theorem C116_nfa_filtered (ord : List Nfa.OPair → List Nfa.OPair) (hord : ∀ l, (ord l).Perm l) (n o p : Nfa) (hn : n.WF) (ho : o.WF)
    (hp : Nfa.intersection ord n o = some (some p)) (hen : ∀ s ∈ n.states, s.epsilonTransitions = [])
    (hep : ∀ s ∈ p.states, s.epsilonTransitions = []) (k : Nat) :
    ∃ rs, n.wordComponents k = some rs ∧ p.wordComponents (keepWords o.accepts rs).length = some (keepWords o.accepts rs) := by
  obtain ⟨h1, h2, h3, _⟩ := C22_intersection_lang ord hord n o p hn ho hp
  exact wordComponents_keep hn h1 hen hep h2 o.accepts (fun w => by rw [h3, C02_nfa_accepts_iff o ho]) k

/-- Words of even length beginning with `a` that end in `b`. -/
example : ∃ p, Nfa.intersection id evenA endsB.toNfa = some (some p) ∧ (∀ s ∈ evenA.states, s.epsilonTransitions = []) ∧
    (∀ s ∈ p.states, s.epsilonTransitions = []) ∧ p.wordComponents 1 = some [some [s 'a', s 'b']] := by
  refine ⟨_, rfl, by decide, by decide +kernel, by decide +kernel⟩

/-- **C116** If everything one NFA accepts is accepted by the other, over the same alphabet, then the enumeration of the first is the
enumeration of the other with words left out. -/
theorem C116_included (n o : Nfa) (hn : n.WF) (ho : o.WF) (hen : ∀ s ∈ n.states, s.epsilonTransitions = [])
    (heo : ∀ s ∈ o.states, s.epsilonTransitions = []) (ha : n.alphabet = o.alphabet) (h : ∀ w, n.accepts w = true → o.accepts w = true)
    (k : Nat) :
    ∃ rs, o.wordComponents k = some rs ∧ n.wordComponents (keepWords n.accepts rs).length = some (keepWords n.accepts rs) :=
  wordComponents_keep ho hn heo hen ha n.accepts (fun w => by
    rw [C02_nfa_accepts_iff n hn]
    exact ⟨fun hw => ⟨(C02_nfa_accepts_iff o ho w).1 (h w ((C02_nfa_accepts_iff n hn w).2 hw)), hw⟩, fun hw => hw.2⟩) k

example : ∃ p, Nfa.intersection id evenA endsB.toNfa = some (some p) ∧ (∀ s ∈ p.states, s.epsilonTransitions = []) ∧
    p.alphabet = evenA.alphabet ∧ ∀ w, p.accepts w = true → evenA.accepts w = true := by
  refine ⟨_, rfl, by decide +kernel, by decide +kernel, fun w hw => ?_⟩
  rw [(C22_intersection_lang id (fun _ => .refl _) evenA endsB.toNfa _ evenA_wf (C18_to_nfa_lang endsB endsB_wf []).1 rfl).2.2.2,
    Bool.and_eq_true] at hw
  exact hw.1

/-- **C116** The first `k` words of a union are the first `k` of those among the first `k` words of either operand: no more of the operands
has to be enumerated. (Both alphabets in the same order; by `C62_first_words_unique` this determines the words.) -/
theorem C116_union (ord : List (Nat × Nat) → List (Nat × Nat)) (hord : ∀ l, (ord l).Perm l) (d o : Dfa) (hd : d.WF) (ho : o.WF)
    (ha : d.alphabet = o.alphabet) (k : Nat) :
    ∃ (u : Dfa) (ws ws' us : List Word) (m m' mu : Nat), Dfa.union ord d o = some (some u) ∧
      d.toNfa.wordComponents k = some (ws.map some ++ List.replicate m none) ∧
      o.toNfa.wordComponents k = some (ws'.map some ++ List.replicate m' none) ∧
      u.toNfa.wordComponents k = some (us.map some ++ List.replicate mu none) ∧
      FirstWords d.alphabet (fun w => w ∈ ws ∨ w ∈ ws') k us := by
  have hs : SameElems d.alphabet o.alphabet := by rw [ha]; intro e; rfl
  obtain ⟨⟨u, u1, u2, u3, u4⟩, _⟩ := (C09_dfa_set_operations ord hord d o hd ho).2 hs
  obtain ⟨a1, a2, a3⟩ := toNfa_facts hd
  obtain ⟨b1, b2, b3⟩ := toNfa_facts ho
  obtain ⟨c1, c2, c3⟩ := toNfa_facts u2
  obtain ⟨ws, m, d1, _, d2⟩ := wordComponents_first a1 a3 k
  obtain ⟨ws', m', e1, _, e2⟩ := wordComponents_first b1 b3 k
  obtain ⟨us, mu, f1, _, f2⟩ := wordComponents_first c1 c3 k
  refine ⟨u, ws, ws', us, m, m', mu, u1, d1, e1, f1, ?_⟩
  have d2' : FirstWords d.alphabet d.Lang k ws := d2.congr a2
  have e2' : FirstWords d.alphabet o.Lang k ws' := by rw [ha]; exact e2.congr b2
  have f2' : FirstWords d.alphabet (fun w => d.Lang w ∨ o.Lang w) k us := by
    have : FirstWords u.alphabet u.Lang k us := f2.congr c2
    rw [u3] at this
    exact this.congr u4
  exact FirstWords.union hd.alphabet_nodup d2' e2' f2'

/-- The DFA `redundant` enumerates `a` and `b` and then ends; the union with `oddA` has one word more than `oddA`. -/
example : oddA.alphabet = redundant.alphabet ∧ oddA.toNfa.wordComponents 3 = some [some [s 'a'], some [s 'a', s 'b'], some [s 'b', s 'a']] ∧
    redundant.toNfa.wordComponents 3 = some [some [s 'a'], some [s 'b'], none] ∧
    ∃ u, Dfa.union id oddA redundant = some (some u) ∧
      u.toNfa.wordComponents 3 = some [some [s 'a'], some [s 'b'], some [s 'a', s 'b']] := by
  refine ⟨rfl, by decide +kernel, by decide +kernel, _, rfl, by decide +kernel⟩

/-- **C116** What a DFA and its inverse enumerate has no word in common, and together the first `k` words of both begin with the first `k`
words over the alphabet. -/
theorem C116_inverse (d : Dfa) (hd : d.WF) (k : Nat) :
    ∃ (ws ws' : List Word) (m m' : Nat), d.toNfa.wordComponents k = some (ws.map some ++ List.replicate m none) ∧
      d.invert.toNfa.wordComponents k = some (ws'.map some ++ List.replicate m' none) ∧
      (∀ w, ¬ (w ∈ ws ∧ w ∈ ws')) ∧
      ∀ us, FirstWords d.alphabet (Over d.alphabet) k us → FirstWords d.alphabet (fun w => w ∈ ws ∨ w ∈ ws') k us := by
  have hi : d.invert.WF := (C07_invert_complement d hd []).1
  obtain ⟨a1, a2, a3⟩ := toNfa_facts hd
  obtain ⟨b1, b2, b3⟩ := toNfa_facts hi
  obtain ⟨ws, m, d1, _, d2⟩ := wordComponents_first a1 a3 k
  obtain ⟨ws', m', e1, _, e2⟩ := wordComponents_first b1 b3 k
  have d2' : FirstWords d.alphabet d.Lang k ws := d2.congr a2
  have e2' : FirstWords d.alphabet d.invert.Lang k ws' := e2.congr b2
  refine ⟨ws, ws', m, m', d1, e1, fun w hw => ?_, fun us hus => ?_⟩
  · exact ((C07_invert_complement d hd w).2.1.1 (e2'.sound w hw.2)).2 (d2'.sound w hw.1)
  · refine FirstWords.union hd.alphabet_nodup d2' e2' (hus.congr (fun w => ⟨fun h => ?_, fun h => ?_⟩))
    · by_cases hc : d.Lang w
      · exact .inl hc
      · exact .inr ((C07_invert_complement d hd w).2.1.2 ⟨h, hc⟩)
    · rcases h with h | h
      · exact Dfa.over_of_lang hd h
      · exact ((C07_invert_complement d hd w).2.1.1 h).1

/-- The first words of `oddA` and of its inverse; the first two over the alphabet, the empty word and `a`, are among them. -/
example : oddA.toNfa.wordComponents 2 = some [some [s 'a'], some [s 'a', s 'b']] ∧
    oddA.invert.toNfa.wordComponents 2 = some [some [], some [s 'b']] := by
  constructor <;> decide +kernel

end Dandy
