import Verif.Proofs.RenameNfa
import Verif.Props.DfaEvaluator
import Verif.Props.NfaEvaluator
import Verif.Props.Words
import Verif.Props.Samples
/-! # C112, C113: other letters, other names of states -/

namespace Dandy
open Samples

/-- `a` becomes `x`, `b` becomes `yy`; every other string gets a `-` in front. -/
private def swap (e : Str) : Str := if e = s 'a' then c!"x" else if e = s 'b' then c!"yy" else '-' :: e

private theorem swap_injective : Function.Injective swap := by
  intro x y h
  unfold swap at h
  have hd1 : ∀ z : Str, '-' :: z ≠ c!"x" := by intro z hz; injection hz with h1; revert h1; decide
  have hd2 : ∀ z : Str, '-' :: z ≠ c!"yy" := by intro z hz; injection hz with h1; revert h1; decide
  have h12 : c!"x" ≠ c!"yy" := by decide
  split at h <;> split at h <;> (try split at h) <;> (try split at h) <;> simp_all

/-- **C112** A DFA written with other letters is valid and accepts exactly the words of the original one written with the other letters. -/
theorem C112_dfa_accepts (f : Str → Str) (hf : Function.Injective f) (d : Dfa) (hd : d.WF) (w : Word) :
    (d.letters f).WF ∧ ((d.letters f).accepts w = true ↔ ∃ v, w = v.map f ∧ d.accepts v = true) := by
  have hw := Dfa.letters_wf hf hd
  refine ⟨hw, ?_, ?_⟩
  · intro h
    have ho : ∀ e ∈ w, e ∈ d.alphabet.map f := by
      intro e he
      by_contra hx
      rw [C01_dfa_rejects_foreign (d.letters f) hw w e he hx] at h
      cases h
    obtain ⟨v, rfl⟩ := exists_map_of_mem ho
    exact ⟨v, rfl, by rwa [Dfa.rename_accepts hf rfl] at h⟩
  · rintro ⟨v, rfl, h⟩
    rw [Dfa.rename_accepts hf rfl]; exact h

example : Function.Injective swap ∧ oddA.WF ∧ (oddA.letters swap).alphabet = [c!"x", c!"yy"] ∧
    (oddA.letters swap).accepts [c!"x", c!"yy"] = true ∧ (oddA.letters swap).accepts [s 'a', s 'b'] = false ∧
    oddA.accepts [s 'a', s 'b'] = true := ⟨swap_injective, oddA_wf, by decide +kernel⟩

/-- **C112** Operations on one DFA do not see which letters are used: each gives the same automaton, with the other letters. -/
theorem C112_dfa_operations (f : Str → Str) (u m k : List Nat → List Nat) (d : Dfa) :
    (d.letters f).invert = d.invert.letters f ∧ (d.letters f).toNfa = d.toNfa.letters f ∧
    (d.letters f).reachableStateIdx = d.reachableStateIdx ∧
    (d.letters f).stateEquivalenceClassesIdx = d.stateEquivalenceClassesIdx ∧
    (d.letters f).removeUnreachableStates u = (d.removeUnreachableStates u).map (Dfa.letters f) ∧
    (d.letters f).mergeNondistinguishableStates m k = (d.mergeNondistinguishableStates m k).map (Dfa.letters f) ∧
    (d.letters f).minimize u m k = (d.minimize u m k).map (Dfa.letters f) :=
  ⟨Dfa.rename_invert d, Dfa.rename_toNfa d, Dfa.rename_reachable rfl d, Dfa.rename_classes rfl d, Dfa.rename_removeUnreachable rfl u d,
    Dfa.rename_merge rfl m k d, Dfa.rename_minimize rfl u m k d⟩

example : redundant.minimize id id id ≠ none ∧ redundant.minimize id id id ≠ some redundant ∧
    (redundant.letters swap).minimize id id id = (redundant.minimize id id id).map (Dfa.letters swap) := by
  refine ⟨by decide +kernel, by decide +kernel, (C112_dfa_operations swap id id id redundant).2.2.2.2.2.2⟩

/-- **C112** Operations on two DFAs: unions, intersections, differences and all other products (also the failures because of different
alphabets, and the names of the states), and the comparison. -/
theorem C112_dfa_binary (f : Str → Str) (hf : Function.Injective f) (ord : List (Nat × Nat) → List (Nat × Nat)) (d o : Dfa)
    (comb : DfaState → DfaState → Bool) :
    Dfa.product ord (d.letters f) (o.letters f) comb = (Dfa.product ord d o comb).map (Option.map (Dfa.letters f)) ∧
    (d.letters f).equivalentTo (o.letters f) = d.equivalentTo o :=
  ⟨Dfa.letters_product hf ord d o comb, Dfa.rename_equivalentTo hf rfl d o⟩

example : ∃ p, Dfa.union id oddA endsB = some (some p) ∧
    Dfa.union id (oddA.letters swap) (endsB.letters swap) = some (some (p.letters swap)) ∧ p.alphabet ≠ (p.letters swap).alphabet := by
  have h := (C112_dfa_binary swap swap_injective id oddA endsB (fun s1 s2 => s1.accepting || s2.accepting)).1
  change Dfa.union id _ _ = _ at h
  rw [h]
  change ∃ p, Dfa.union id oddA endsB = some (some p) ∧ (Dfa.union id oddA endsB).map (Option.map (Dfa.letters swap)) = _ ∧ _
  refine ⟨((Dfa.union id oddA endsB).bind id).getD oddA, by decide +kernel, by decide +kernel, by decide +kernel⟩

/-- If letters are identified, it does matter: a valid automaton need not stay valid. -/
example : ¬ (oddA.letters (fun _ => s 'a')).WF := by
  intro h
  have := h.alphabet_nodup
  revert this
  decide +kernel

/-- **C112** An NFA written with other letters is valid and accepts exactly the words of the original one written with the other letters. -/
theorem C112_nfa_accepts (f : Str → Str) (hf : Function.Injective f) (n : Nfa) (hn : n.WF) (w : Word) :
    (n.letters f).WF ∧ ((n.letters f).accepts w = true ↔ ∃ v, w = v.map f ∧ n.accepts v = true) := by
  have hw := Nfa.letters_wf hf hn
  refine ⟨hw, ?_, ?_⟩
  · intro h
    have ho : ∀ e ∈ w, e ∈ n.alphabet.map f := by
      intro e he
      by_contra hx
      rw [C02_nfa_rejects_foreign (n.letters f) hw w e he hx] at h
      cases h
    obtain ⟨v, rfl⟩ := exists_map_of_mem ho
    exact ⟨v, rfl, by rwa [Nfa.rename_accepts hf rfl] at h⟩
  · rintro ⟨v, rfl, h⟩
    rw [Nfa.rename_accepts hf rfl]; exact h

example : epsNfa.WF ∧ (epsNfa.letters swap).alphabet ≠ epsNfa.alphabet ∧ ∃ v, epsNfa.accepts v = true ∧ v ≠ [] ∧
    (epsNfa.letters swap).accepts (v.map swap) = true :=
  ⟨epsNfa_wf, by decide +kernel, [s 'b'], by decide +kernel⟩

/-- **C112** Operations on one NFA give the same automaton, with the other letters. -/
theorem C112_nfa_operations (f : Str → Str) (hf : Function.Injective f) (u : List Nat → List Nat) (t : Nat → Nat → List Nat → List Nat)
    (k : List Nat → List Nat) (n : Nfa) :
    (n.letters f).reachableStateIdx = n.reachableStateIdx ∧
    (n.letters f).removeUnreachableStates u = (n.removeUnreachableStates u).map (Nfa.letters f) ∧
    (n.letters f).removeEpsilonMoves t k = (n.removeEpsilonMoves t k).map (Nfa.letters f) ∧
    (n.letters f).optimize u t k = (n.optimize u t k).map (Nfa.letters f) ∧
    (n.letters f).toDfa = n.toDfa.map (Dfa.letters f) := by
  have hid : (Nfa.rename id id : Nfa → Nfa) = id := by funext n; simp [Nfa.rename]
  have h1 := Nfa.rename_removeEps (f := f) (g := id) (h := id) rfl (Or.inl ⟨rfl, rfl⟩) t k n
  have h2 := Nfa.rename_optimize (f := f) (g := id) (h := id) rfl (Or.inl ⟨rfl, rfl⟩) u t k n
  rw [hid, Option.map_id_apply] at h1 h2
  exact ⟨Nfa.rename_reachable rfl n, Nfa.rename_removeUnreachable rfl u n, h1, h2, Nfa.rename_toDfa hf rfl n⟩

example : epsNfa.removeEpsilonMoves (fun _ _ => id) id ≠ some epsNfa ∧
    (epsNfa.letters swap).removeEpsilonMoves (fun _ _ => id) id = (epsNfa.removeEpsilonMoves (fun _ _ => id) id).map (Nfa.letters swap) ∧
    (epsNfa.letters swap).toDfa = epsNfa.toDfa.map (Dfa.letters swap) ∧ (epsNfa.letters swap).toDfa ≠ epsNfa.toDfa :=
  ⟨by decide +kernel, (C112_nfa_operations swap swap_injective id (fun _ _ => id) id epsNfa).2.2.1,
    (C112_nfa_operations swap swap_injective id (fun _ _ => id) id epsNfa).2.2.2.2, by decide +kernel⟩

/-- **C112** Operations on two NFAs: union (a failed one gives the operands back), intersection and all other products, and the comparison. -/
theorem C112_nfa_binary (f : Str → Str) (hf : Function.Injective f) (ord : List Nfa.OPair → List Nfa.OPair) (n o : Nfa)
    (comb : Option NfaState → Option NfaState → Bool) :
    Nfa.union (n.letters f) (o.letters f) = (Nfa.union n o).map (fun r => match r with
      | .ok p => .ok (p.letters f)
      | .error (a, b) => .error (a.letters f, b.letters f)) ∧
    Nfa.product ord (n.letters f) (o.letters f) comb = (Nfa.product ord n o comb).map (Option.map (Nfa.letters f)) ∧
    (n.letters f).equivalentTo (o.letters f) = n.equivalentTo o := by
  refine ⟨?_, Nfa.letters_product hf ord n o comb, Nfa.rename_equivalentTo hf rfl n o⟩
  have hid : (Nfa.rename id id : Nfa → Nfa) = id := by funext n; simp [Nfa.rename]
  have hid' : Nfa.onUnion id = id := by funext r; cases r <;> rfl
  have h1 := Nfa.rename_union (g := id) (h := id) hf (Or.inl ⟨rfl, rfl⟩) n o
  rw [hid, hid', Option.map_id_apply] at h1
  rw [h1]
  congr 1
  funext r
  cases r <;> rfl

example : (Nfa.union (epsNfa.letters swap) (epsNfa.letters swap)).map Except.toBool = some true ∧
    Nfa.union (epsNfa.letters swap) (epsNfa.letters swap) ≠ Nfa.union epsNfa epsNfa ∧
    (epsNfa.letters swap).equivalentTo (epsNfa.letters swap) = some true := by
  decide +kernel

/-- **C112** The enumeration of words: the same indices, the same words with the other letters; what is printed is the other letters put together. -/
theorem C112_words (f : Str → Str) (n : Nfa) (hf : Function.Injective f) (hn : n.WF) (k : Nat) :
    (n.letters f).wordComponentIndices k = n.wordComponentIndices k ∧
    (n.letters f).wordComponents k = (n.wordComponents k).map (List.map (Option.map (List.map f))) ∧
    (n.letters f).words k = (n.wordComponents k).map (List.map (Option.map (fun w => (w.map f).flatten))) := by
  have hi := Nfa.rename_wordComponentIndices (f := f) (g := id) rfl n k
  refine ⟨hi, ?_⟩
  by_cases he : ∀ s ∈ n.states, s.epsilonTransitions = []
  · have hst : (n.letters f).states = n.states := by simp [Nfa.letters, Nfa.rename]
    obtain ⟨rs, h1, _, hlt, h2, _⟩ := C32_iterators_agree n hn he k
    obtain ⟨rs', h1', _, _, h2', h3'⟩ := C32_iterators_agree (n.letters f) (Nfa.letters_wf hf hn) (by rw [hst]; exact he) k
    have hrs : rs' = rs := by
      rw [← hi] at h1
      exact Option.some.inj (h1'.symm.trans h1)
    subst hrs
    have hg : ∀ w, some w ∈ rs' → w.map (fun a => (n.letters f).alphabet.getD a []) = (w.map (fun a => n.alphabet.getD a [])).map f := by
      intro w hw
      rw [List.map_map]
      apply List.map_congr_left
      intro a ha
      have hl := hlt w hw a ha
      show (n.alphabet.map f).getD a [] = _
      simp [List.getD_eq_getElem?_getD, hl]
    rw [h2, h2', h3']
    simp only [Option.map_some, Option.some.injEq, List.map_map]
    constructor
    · apply List.map_congr_left
      intro r hr
      cases r with
      | none => rfl
      | some w => simp only [Function.comp_apply, Option.map_some, hg w hr]
    · apply List.map_congr_left
      intro r hr
      cases r with
      | none => rfl
      | some w => simp only [Function.comp_apply, Option.map_some, hg w hr]
  · have h1 : n.hasEpsilonMoves = true := by
      push Not at he
      obtain ⟨s, hs, hne⟩ := he
      unfold Nfa.hasEpsilonMoves
      rw [List.any_eq_true]
      exact ⟨s, hs, by simpa using hne⟩
    have h2 : (n.letters f).hasEpsilonMoves = true := by rw [Nfa.rename_hasEps]; exact h1
    simp [Nfa.wordComponents, Nfa.words, WordIter.new, h1, h2]

example : evenA.WF ∧ evenA.wordComponents 3 ≠ none ∧ (evenA.letters swap).words 3 ≠ evenA.words 3 ∧
    (evenA.letters swap).wordComponents 3 = (evenA.wordComponents 3).map (List.map (Option.map (List.map swap))) :=
  ⟨evenA_wf, by decide +kernel, by decide +kernel, (C112_words swap evenA swap_injective evenA_wf 3).2.1⟩

/-- **C112** Regular expressions: writing other letters before or after compiling is the same. -/
theorem C112_regex (f : Str → Str) (hf : Function.Injective f) (t : RegexTree) (w : Word) :
    (t.letters f).toNfa = t.toNfa.letters f ∧ (t.letters f).toNfa.accepts (w.map f) = t.toNfa.accepts w := by
  have h := RegexTree.toNfa_letters hf t
  exact ⟨h, by rw [h]; exact Nfa.rename_accepts hf rfl _ w⟩

example : let t : RegexTree := .alt [.rep (.chr (.grapheme (s 'a'))), .seq [.chr (.grapheme (s 'b')), .chr (.grapheme (s 'a'))]]
    t.toNfa.alphabet = [s 'a', s 'b'] ∧ (t.letters swap).toNfa.alphabet = [c!"x", c!"yy"] ∧
    (t.letters swap).toNfa.accepts [c!"yy", c!"x"] = true ∧ (t.letters swap).toNfa.accepts [s 'b', s 'a'] = false := by
  decide +kernel

/-! ## C113 -/

/-- `oddA` with other names. -/
private def oddA' : Dfa := oddA.rename id (fun e => 'q' :: e)

/-- **C113** Two DFAs which differ at most in the names of their states accept the same, and every operation gives results which differ at
most in the names (in runs of the same iteration orders). -/
theorem C113_dfa (d d' : Dfa) (h : d.SameButNames d') (u m k : List Nat → List Nat) :
    (∀ w, d.accepts w = d'.accepts w) ∧ d.invert.SameButNames d'.invert ∧ d.toNfa.SameButNames d'.toNfa ∧
    d.reachableStateIdx = d'.reachableStateIdx ∧ d.stateEquivalenceClassesIdx = d'.stateEquivalenceClassesIdx ∧
    BothOr Dfa.SameButNames (d.removeUnreachableStates u) (d'.removeUnreachableStates u) ∧
    BothOr Dfa.SameButNames (d.mergeNondistinguishableStates m k) (d'.mergeNondistinguishableStates m k) ∧
    BothOr Dfa.SameButNames (d.minimize u m k) (d'.minimize u m k) := by
  have he := dfa_sameButNames_iff.1 h
  have hid := Function.injective_id (α := Str)
  refine ⟨fun w => ?_, ?_, ?_, dfa_anon_eq (F := Dfa.reachableStateIdx) (Dfa.rename_reachable rfl) h,
    dfa_anon_eq (F := Dfa.stateEquivalenceClassesIdx) (Dfa.rename_classes rfl) h, ?_, ?_, ?_⟩
  · refine dfa_anon_eq (F := fun d => d.accepts w) (fun d => ?_) h
    have := Dfa.rename_accepts (g := anon) hid rfl d w
    rwa [List.map_id] at this
  · rw [dfa_sameButNames_iff, ← Dfa.rename_invert, ← Dfa.rename_invert, he]
  · rw [nfa_sameButNames_iff, ← Dfa.rename_toNfa, ← Dfa.rename_toNfa, he]
  · apply bothOr_dfa
    rw [← Dfa.rename_removeUnreachable rfl, ← Dfa.rename_removeUnreachable rfl, he]
  · apply bothOr_dfa
    rw [← Dfa.rename_merge rfl, ← Dfa.rename_merge rfl, he]
  · apply bothOr_dfa
    rw [← Dfa.rename_minimize rfl, ← Dfa.rename_minimize rfl, he]

/-- **C113** The comparison of two DFAs does not look at the names. -/
theorem C113_dfa_equivalent (d d' o o' : Dfa) (h : d.SameButNames d') (h' : o.SameButNames o') :
    d.equivalentTo o = d'.equivalentTo o' := by
  have hid := Function.injective_id (α := Str)
  rw [← Dfa.rename_equivalentTo (g := anon) hid rfl d o, ← Dfa.rename_equivalentTo (g := anon) hid rfl d' o',
    dfa_sameButNames_iff.1 h, dfa_sameButNames_iff.1 h']

/-- **C113** Unions, intersections, differences and symmetric differences (`b` is any combination of the two acceptance flags): the results
differ at most in the names, in all pairs of runs. -/
theorem C113_dfa_product (ord ord' : List (Nat × Nat) → List (Nat × Nat)) (hord : ∀ l, (ord l).Perm l) (hord' : ∀ l, (ord' l).Perm l)
    (d d' o o' : Dfa) (hd : d.WF) (hd' : d'.WF) (ho : o.WF) (ho' : o'.WF) (h : d.SameButNames d') (h' : o.SameButNames o')
    (hs : SameElems d.alphabet o.alphabet) (b : Bool → Bool → Bool) :
    ∃ p p', Dfa.product ord d o (fun s t => b s.accepting t.accepting) = some (some p) ∧
      Dfa.product ord' d' o' (fun s t => b s.accepting t.accepting) = some (some p') ∧ p.SameButNames p' := by
  refine Dfa.product_sameButNames hd ho hd' ho' h h' hs hord hord' _ ?_
  intro s t s' t' h1 h2
  have e1 : s.accepting = s'.accepting := by injection h1
  have e2 : t.accepting = t'.accepting := by injection h2
  rw [e1, e2]

private theorem oddA'_wf : oddA'.WF := Dfa.wf_of_wfB (by decide +kernel)
private theorem oddA'_same : oddA.SameButNames oddA' := by rw [dfa_sameButNames_iff]; decide +kernel

example : oddA.SameButNames oddA' ∧ oddA'.WF ∧ oddA ≠ oddA' ∧ SameElems oddA.alphabet endsB.alphabet ∧
    Dfa.union id oddA endsB ≠ Dfa.union id oddA' endsB ∧
    (∃ p p', Dfa.union id oddA endsB = some (some p) ∧ Dfa.union id oddA' endsB = some (some p') ∧ p.SameButNames p') :=
  ⟨oddA'_same, oddA'_wf, by decide +kernel, by intro e; simp [oddA, endsB, or_comm], by decide +kernel,
    C113_dfa_product id id (fun _ => .refl _) (fun _ => .refl _) oddA oddA' endsB endsB oddA_wf oddA'_wf endsB_wf endsB_wf oddA'_same
      ⟨rfl, rfl, List.forall₂_same.2 (fun _ _ => ⟨rfl, rfl, rfl⟩)⟩ (by intro e; simp [oddA, endsB, or_comm]) (· || ·)⟩

/-- **C113** Two NFAs which differ at most in the names of their states accept the same words, give exactly the same DFA and the same
enumeration of words, and every operation gives results which differ at most in the names. -/
theorem C113_nfa (n n' : Nfa) (h : n.SameButNames n') (u : List Nat → List Nat) (t : Nat → Nat → List Nat → List Nat)
    (k : List Nat → List Nat) :
    (∀ w, n.accepts w = n'.accepts w) ∧ n.toDfa = n'.toDfa ∧ n.reachableStateIdx = n'.reachableStateIdx ∧
    (∀ i, n.wordComponentIndices i = n'.wordComponentIndices i ∧ n.wordComponents i = n'.wordComponents i ∧ n.words i = n'.words i) ∧
    BothOr Nfa.SameButNames (n.removeUnreachableStates u) (n'.removeUnreachableStates u) ∧
    BothOr Nfa.SameButNames (n.removeEpsilonMoves t k) (n'.removeEpsilonMoves t k) ∧
    BothOr Nfa.SameButNames (n.optimize u t k) (n'.optimize u t k) := by
  have he := nfa_sameButNames_iff.1 h
  have hid := Function.injective_id (α := Str)
  refine ⟨fun w => ?_, nfa_anon_eq (F := Nfa.toDfa) (fun n => ?_) h, nfa_anon_eq (F := Nfa.reachableStateIdx) (Nfa.rename_reachable rfl) h,
    fun i => ⟨nfa_anon_eq (F := fun n => n.wordComponentIndices i) (fun n => Nfa.rename_wordComponentIndices rfl n i) h,
      nfa_anon_eq (F := fun n => n.wordComponents i) (fun n => Nfa.anon_wordComponents n i) h,
      nfa_anon_eq (F := fun n => n.words i) (fun n => Nfa.anon_words n i) h⟩, ?_, ?_, ?_⟩
  · refine nfa_anon_eq (F := fun d => d.accepts w) (fun d => ?_) h
    have := Nfa.rename_accepts (g := anon) hid rfl d w
    rwa [List.map_id] at this
  · rw [Nfa.rename_toDfa hid rfl]
    have : (Dfa.rename id id : Dfa → Dfa) = id := by funext d; simp [Dfa.rename]
    rw [this, Option.map_id_apply]
  · apply bothOr_nfa
    rw [← Nfa.rename_removeUnreachable rfl, ← Nfa.rename_removeUnreachable rfl, he]
  · apply bothOr_nfa
    have h1 := Nfa.rename_removeEps (f := id) (g := anon) (h := anon) rfl (Or.inr rfl) t k
    rw [← h1 n, ← h1 n', he]
  · apply bothOr_nfa
    have h1 := Nfa.rename_optimize (f := id) (g := anon) (h := anon) rfl (Or.inr rfl) u t k
    rw [← h1 n, ← h1 n', he]

/-- **C113** Operations on two NFAs: the comparison does not look at the names; unions fail for the same pairs of automata, and otherwise
differ at most in the names. -/
theorem C113_nfa_binary (n n' o o' : Nfa) (h : n.SameButNames n') (h' : o.SameButNames o') :
    n.equivalentTo o = n'.equivalentTo o' ∧
    (∀ p, Nfa.union n o = some (.ok p) → ∃ p', Nfa.union n' o' = some (.ok p') ∧ p.SameButNames p') := by
  have hid := Function.injective_id (α := Str)
  constructor
  · rw [← Nfa.rename_equivalentTo (g := anon) hid rfl n o, ← Nfa.rename_equivalentTo (g := anon) hid rfl n' o',
      nfa_sameButNames_iff.1 h, nfa_sameButNames_iff.1 h']
  · intro p hp
    have h1 := Nfa.rename_union (f := id) (g := anon) (h := anon) hid (Or.inr rfl)
    have h2 := h1 n o
    rw [nfa_sameButNames_iff.1 h, nfa_sameButNames_iff.1 h', h1 n' o'] at h2
    replace h2 := h2.symm
    rw [hp] at h2
    cases hu : Nfa.union n' o' with
    | none => rw [hu] at h2; cases h2
    | some r =>
      rw [hu] at h2
      cases r with
      | error e => cases h2
      | ok p' =>
        refine ⟨p', rfl, nfa_sameButNames_iff.2 ?_⟩
        simp only [Option.map_some, Nfa.onUnion, Option.some.injEq, Except.ok.injEq] at h2
        exact h2

/-- **C113** Intersections and other products of NFAs: the results differ at most in the names, in all pairs of runs. -/
theorem C113_nfa_product (ord ord' : List Nfa.OPair → List Nfa.OPair) (hord : ∀ l, (ord l).Perm l) (hord' : ∀ l, (ord' l).Perm l)
    (n n' o o' : Nfa) (hn : n.WF) (hn' : n'.WF) (ho : o.WF) (ho' : o'.WF) (h : n.SameButNames n') (h' : o.SameButNames o')
    (hs : SameElems n.alphabet o.alphabet) (b : Option Bool → Option Bool → Bool) :
    ∃ p p', Nfa.product ord n o (fun s t => b (s.map (·.accepting)) (t.map (·.accepting))) = some (some p) ∧
      Nfa.product ord' n' o' (fun s t => b (s.map (·.accepting)) (t.map (·.accepting))) = some (some p') ∧ p.SameButNames p' := by
  refine Nfa.product_sameButNames hn ho hn' ho' h h' hs hord hord' _ ?_
  intro s t s' t' h1 h2
  have key : ∀ x y : Option NfaState, x.map (NfaState.rename anon) = y.map (NfaState.rename anon) →
      x.map (·.accepting) = y.map (·.accepting) := by
    intro x y hxy
    have := congrArg (Option.map (·.accepting)) hxy
    simpa [Function.comp_def, NfaState.rename] using this
  rw [key _ _ h1, key _ _ h2]

/-- `epsNfa` with other names. -/
private def epsNfa' : Nfa := epsNfa.rename id (fun e => 'q' :: e)
private theorem epsNfa'_same : epsNfa.SameButNames epsNfa' := by rw [nfa_sameButNames_iff]; decide +kernel

example : epsNfa.SameButNames epsNfa' ∧ epsNfa ≠ epsNfa' ∧ epsNfa.toDfa = epsNfa'.toDfa ∧ epsNfa.toDfa ≠ none ∧
    (Nfa.union epsNfa epsNfa).map Except.toBool = some true ∧ Nfa.union epsNfa' epsNfa ≠ Nfa.union epsNfa epsNfa ∧
    Nfa.intersection id epsNfa epsNfa ≠ Nfa.intersection id epsNfa' epsNfa ∧ epsNfa'.WF ∧
    epsNfa.removeEpsilonMoves (fun _ _ => id) id ≠ epsNfa'.removeEpsilonMoves (fun _ _ => id) id :=
  ⟨epsNfa'_same, by decide +kernel, (C113_nfa epsNfa epsNfa' epsNfa'_same id (fun _ _ => id) id).2.1, by decide +kernel,
    by decide +kernel, by decide +kernel, by decide +kernel, Nfa.wf_of_wfB (by decide +kernel), by decide +kernel⟩

/-! ## Instances of the theorems of this file -/

example := C113_dfa_equivalent oddA oddA' oddA oddA' oddA'_same oddA'_same
example := C113_nfa_binary epsNfa epsNfa' epsNfa epsNfa' epsNfa'_same epsNfa'_same

end Dandy
