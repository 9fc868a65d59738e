import Verif.Proofs.ReadCost
import Verif.Props.ParseCost
import Verif.Props.AlgCost
import Verif.Props.AlgCostNfa
import Verif.Props.Reader
import Verif.Props.Tables
import Verif.Props.Validate
import Mathlib.Tactic.Ring
/-!
# From the text to the answer

Property C106.
-/

namespace Dandy
open Samples

/-- **C106** A table that the parser accepts has no more to write down than the text has characters. -/
theorem C106_written (t : Str) :
    (∀ p, Fa.dfa t = some p → p.written ≤ t.length + 1) ∧ ∀ p, Fa.nfa t = some p → p.written ≤ t.length + 1 :=
  ⟨fun _ h => Reader.dfa_written (C103_dfa t ▸ h), fun _ h => Reader.nfa_written (C103_nfa t ▸ h)⟩

/-- Of the first text one could leave away seven characters (the comment with its line end, the mark with its blank). -/
example : c!"# c\na b\n-> x y x\ny y x".length = 22 ∧ (Fa.dfa c!"# c\na b\n-> x y x\ny y x").map (·.written) = some 16 ∧
    c!"eps b\n-> x {} {y x}\ny {x} {}".length = 28 ∧ (Fa.nfa c!"eps b\n-> x {} {y x}\ny {x} {}").map (·.written) = some 18 := by
  decide +kernel

/-- **C106** Reading a DFA table, that is, parsing it and turning the result into a DFA, takes time linear in the length of the text, whether it
succeeds or not. -/
theorem C106_dfa (t : Str) : readDfaCost t ≤ 197 * t.length + 252 := by
  have h1 := (C91_dfa.2 t)
  unfold readDfaCost
  split
  · omega
  · rename_i p hp
    have h2 := ValidateC.dfa_le p
    have h3 := (C106_written t).1 p hp
    omega

/-- **C106** The same for NFA tables. -/
theorem C106_nfa (t : Str) : readNfaCost t ≤ 266 * t.length + 350 := by
  have h1 := (C91_nfa.2 t)
  unfold readNfaCost
  split
  · omega
  · rename_i p hp
    have h2 := ValidateC.nfa_le p
    have h3 := (C106_written t).2 p hp
    omega

/-- A good table; one with an unknown target in the first row; one with a state that is defined twice; an NFA. -/
example : readDfaCost c!"a b\n-> x y x\ny y x" = FaC.dfaCost c!"a b\n-> x y x\ny y x" + 41 ∧
    readDfaCost c!"a b\n-> x z x\ny y x" = FaC.dfaCost c!"a b\n-> x z x\ny y x" + 20 ∧
    readDfaCost c!"a b\n-> x x x\nx x x" = FaC.dfaCost c!"a b\n-> x x x\nx x x" + 18 ∧
    readNfaCost c!"eps b\n-> x {} {y x}\ny {x} {}" = FaC.nfaCost c!"eps b\n-> x {} {y x}\ny {x} {}" + 46 := by decide +kernel

private theorem two_le {l : List Str} (h : ∀ e ∈ l, TableText.Name e) : 2 * l.length ≤ written l := by
  induction l with
  | nil => exact Nat.le_refl _
  | cons e l ih =>
    have h1 := List.length_pos_of_ne_nil (h e List.mem_cons_self).1
    have h2 := ih (fun x hx => h x (List.mem_cons_of_mem _ hx))
    rw [List.length_cons, written_cons]
    omega

private theorem rows_two (k : Nat) : ∀ {ss : List ParsedDfaState}, (∀ s ∈ ss, s.transitions.length = k) →
    (∀ s ∈ ss, TableText.Name s.name ∧ s.transitions ≠ [] ∧ ∀ x ∈ s.transitions, TableText.Name x) →
    2 * (ss.length * (k + 1)) ≤ (ss.map (fun s => s.name.length + 1 + written s.transitions)).sum := by
  intro ss hk hn
  induction ss with
  | nil => simp
  | cons s ss ih =>
    have h1 := ih (fun x hx => hk x (List.mem_cons_of_mem _ hx)) (fun x hx => hn x (List.mem_cons_of_mem _ hx))
    obtain ⟨h2, _, h3⟩ := hn s List.mem_cons_self
    have h4 := two_le h3
    have h5 := List.length_pos_of_ne_nil h2.1
    rw [hk s List.mem_cons_self] at h4
    rw [List.length_cons, List.map_cons, List.sum_cons, Nat.add_mul]
    omega

/-- **C106** A DFA that is read from a text with `L` characters has a table of at most `(L + 1) / 2` cells (elements, names of states and targets): it is
never larger than what was written. -/
theorem C106_dfa_size (t : Str) (p : ParsedDfa) (d : Dfa) (h : Fa.dfa t = some p) (hd : Validate.dfa p = .ok d) :
    2 * (d.alphabet.length + d.states.length * (d.alphabet.length + 1)) ≤ t.length + 1 := by
  have h1 := (C106_written t).1 p h
  obtain ⟨_, _, h2, h3⟩ := C43_dfa_names t p h
  have h4 := ((C38_succeeds_iff p).1 ⟨d, hd⟩).width
  obtain ⟨h5, _, _⟩ := C38_content p d hd
  rw [h5.alphabet, h5.count]
  have h6 := two_le h2
  have h7 := rows_two p.head.length h4 h3
  unfold ParsedDfa.written at h1
  omega

/-- **C106** An NFA that is read from a text is not larger than the text either. -/
theorem C106_nfa_size (t : Str) (p : ParsedNfa) (n : Nfa) (h : Fa.nfa t = some p) (hn : Validate.nfa p = .ok n) :
    2 * n.alphabet.length + n.tableSize ≤ t.length + 1 := by
  have h1 := (C106_written t).2 p h
  obtain ⟨_, _, h2, _⟩ := C43_nfa_names t p h
  have h3 := nfa_tableSize hn
  have h4 := (C39_content p n hn).1.alphabet
  have h5 : 2 * p.elements.length ≤ (p.head.map (·.written)).sum := by
    unfold ParsedNfa.elements
    clear h1 h3 h4 h hn
    generalize p.head = l at h2 ⊢
    induction l with
    | nil => exact Nat.le_refl _
    | cons e l ih =>
      have h6 := ih (fun x hx => h2 x (List.mem_cons_of_mem _ hx))
      rw [List.flatMap_cons, List.length_append, List.map_cons, List.sum_cons]
      cases e with
      | element c =>
        have := List.length_pos_of_ne_nil (h2 c List.mem_cons_self).1
        have e : (NfaAlphabetEntry.element c).written = c.length + 1 := rfl
        simp only [List.length_cons, List.length_nil, e]
        omega
      | eps => exact Nat.le_trans (by simpa using h6) (Nat.le_add_left _ _)
  rw [h4]
  unfold ParsedNfa.written at h1
  omega

/-- The DFA has eight cells, and the text has the shortest possible length but for the mark; the NFA has one element. -/
example : (∃ p d, Fa.dfa c!"a b\n-> x y x\ny y x" = some p ∧ Validate.dfa p = .ok d ∧
      d.alphabet.length + d.states.length * (d.alphabet.length + 1) = 8 ∧ c!"a b\n-> x y x\ny y x".length = 18) ∧
    ∃ p n, Fa.nfa c!"eps b\n-> x {} {y x}\ny {x} {}" = some p ∧ Validate.nfa p = .ok n ∧ n.alphabet.length = 1 ∧ n.tableSize = 7 := by
  refine ⟨⟨⟨[s 'a', s 'b'], [⟨s 'x', true, false, [s 'y', s 'x']⟩, ⟨s 'y', false, false, [s 'y', s 'x']⟩]⟩,
    ⟨[s 'a', s 'b'], [⟨s 'x', true, false, [1, 0]⟩, ⟨s 'y', false, false, [1, 0]⟩], 0⟩, ?_⟩,
    ⟨⟨[.eps, .element (s 'b')], [⟨s 'x', true, false, [[], [s 'y', s 'x']]⟩, ⟨s 'y', false, false, [[s 'x'], []]⟩]⟩,
    ⟨[s 'b'], [⟨s 'x', true, false, [], [[1, 0]]⟩, ⟨s 'y', false, false, [0], [[]]⟩], 0⟩, ?_⟩⟩ <;> decide +kernel

/-- **C106** Comparing two DFAs given by texts, with the reading: the time is at most proportional to the product of the lengths of the texts. -/
theorem C106_compare (t t' : Str) (p p' : ParsedDfa) (d d' : Dfa) (h : Fa.dfa t = some p) (hd : Validate.dfa p = .ok d) (h' : Fa.dfa t' = some p')
    (hd' : Validate.dfa p' = .ok d') (ha : SameElems d.alphabet d'.alphabet) :
    readDfaCost t + readDfaCost t' + d.equivalentCost d' ≤ 507 * ((t.length + 1) * (t'.length + 1)) := by
  have h1 := C106_dfa_size t p d h hd
  have h2 := C106_dfa_size t' p' d' h' hd'
  have h3 := C92_equivalent d d'
  have h4 := C106_dfa t
  have h5 := C106_dfa t'
  have hk : d.alphabet.length = d'.alphabet.length := by
    have n1 : d.alphabet.Nodup := (C38_content p d hd).2.1.alphabet_nodup
    have n2 : d'.alphabet.Nodup := (C38_content p' d' hd').2.1.alphabet_nodup
    exact Nat.le_antisymm (n1.length_le_of_subset (fun x hx => (ha x).1 hx)) (n2.length_le_of_subset (fun x hx => (ha x).2 hx))
  have h6 : 2 * (d.states.length * (d.alphabet.length + 1)) ≤ t.length + 1 := by omega
  have h7 : 2 * (d'.states.length * (d.alphabet.length + 1)) ≤ t'.length + 1 := by rw [hk]; omega
  have hn : 1 ≤ d.states.length := Nat.zero_lt_of_lt (C38_content p d hd).2.1.init_lt
  have hn' : 1 ≤ d'.states.length := Nat.zero_lt_of_lt (C38_content p' d' hd').2.1.init_lt
  have h8 := Nat.mul_le_mul h6 h7
  have h9 : (d.alphabet.length + 1) ^ 2 ≤ (d.alphabet.length + 1) ^ 2 * (d.states.length * d'.states.length) :=
    Nat.le_mul_of_pos_right _ (Nat.mul_pos hn hn')
  have h10 : 2 * (d.states.length * (d.alphabet.length + 1)) * (2 * (d'.states.length * (d.alphabet.length + 1))) =
      4 * ((d.alphabet.length + 1) ^ 2 * (d.states.length * d'.states.length)) := by ring
  have h11 : 6 * (d.alphabet.length + 1) ^ 2 * (d.states.length * d'.states.length + 1) =
      6 * ((d.alphabet.length + 1) ^ 2 * (d.states.length * d'.states.length)) + 6 * (d.alphabet.length + 1) ^ 2 := by ring
  have h12 : t.length + 1 ≤ (t.length + 1) * (t'.length + 1) := Nat.le_mul_of_pos_right _ (Nat.succ_pos _)
  have h13 : t'.length + 1 ≤ (t.length + 1) * (t'.length + 1) := Nat.le_mul_of_pos_left _ (Nat.succ_pos _)
  omega

/-- Two DFAs for the words that end with `a`. -/
example : ∃ p p' d d', Fa.dfa c!"a b\n-> x y x\n* y y x" = some p ∧ Validate.dfa p = .ok d ∧
    Fa.dfa c!"b a\n* y z y\n-> x x y\nz z y" = some p' ∧ Validate.dfa p' = .ok d' ∧
    (∀ e, e ∈ d.alphabet ↔ e ∈ d'.alphabet) ∧ d.equivalentCost d' = 77 := by
  refine ⟨⟨[s 'a', s 'b'], [⟨s 'x', true, false, [s 'y', s 'x']⟩, ⟨s 'y', false, true, [s 'y', s 'x']⟩]⟩,
    ⟨[s 'b', s 'a'], [⟨s 'y', false, true, [s 'z', s 'y']⟩, ⟨s 'x', true, false, [s 'x', s 'y']⟩, ⟨s 'z', false, false, [s 'z', s 'y']⟩]⟩,
    ⟨[s 'a', s 'b'], [⟨s 'x', true, false, [1, 0]⟩, ⟨s 'y', false, true, [1, 0]⟩], 0⟩,
    ⟨[s 'b', s 'a'], [⟨s 'y', false, true, [2, 0]⟩, ⟨s 'x', true, false, [1, 0]⟩, ⟨s 'z', false, false, [2, 0]⟩], 1⟩,
    by decide +kernel, by decide +kernel, by decide +kernel, by decide +kernel, fun e => ?_, by decide +kernel⟩
  simp only [List.mem_cons, List.not_mem_nil, or_false]
  exact Or.comm

/-- **C106** Reading and minimizing a DFA takes at most cubic time in the length of the text. -/
theorem C106_minimize (ordU ord : List Nat → List Nat) (hU : ∀ l, (ordU l).Perm l) (hord : ∀ l, (ord l).Perm l) (t : Str) (p : ParsedDfa) (d : Dfa)
    (h : Fa.dfa t = some p) (hd : Validate.dfa p = .ok d) :
    readDfaCost t + d.minimizeCost ordU ord ≤ 4 * (t.length + 3) ^ 3 := by
  have h1 := C106_dfa_size t p d h hd
  have hw := (C38_content p d hd).2.1
  have h2 := (C92_minimize ordU ord hU hord d hw).2.2.2
  have h3 := C106_dfa t
  have hn : 1 ≤ d.states.length := Nat.zero_lt_of_lt hw.init_lt
  have hk : 1 ≤ d.alphabet.length := by
    rw [(C38_content p d hd).1.alphabet]
    exact List.length_pos_of_ne_nil (C43_dfa_names t p h).1
  generalize d.states.length = n at *
  generalize d.alphabet.length = k at *
  obtain ⟨x, rfl⟩ : ∃ x, n = x + 1 := ⟨n - 1, by omega⟩
  obtain ⟨y, rfl⟩ : ∃ y, k = y + 1 := ⟨k - 1, by omega⟩
  have e1 : y + 1 + (x + 1) * (y + 1 + 1) + 1 = (x + 1 + 1) * (y + 1 + 1) := by ring
  have e2 : 2 * ((x + 1 + 1) * (y + 1 + 1)) ≤ t.length + 3 := by omega
  have e3 : (x + 1 + 1) * 2 ≤ (x + 1 + 1) * (y + 1 + 1) := Nat.mul_le_mul_left _ (by omega)
  have e4 : 4 * (x + 1 + 1) ≤ t.length + 3 := by omega
  have e10 : 2 ≤ x + 1 + 1 := by omega
  generalize hM : t.length + 3 = M at *
  generalize x + 1 + 1 = X at *
  generalize y + 1 + 1 = K at *
  have e5 : 64 * X ^ 3 ≤ M ^ 3 := by
    have := Nat.pow_le_pow_left e4 3
    rw [Nat.mul_pow] at this
    exact this
  have e6 : 8 * (K * X ^ 2) ≤ M ^ 2 := by
    have := Nat.mul_le_mul e2 e4
    have e : 2 * (X * K) * (4 * X) = 8 * (K * X ^ 2) := by ring
    rw [e] at this
    rwa [← Nat.pow_two M] at this
  have e7 : 8 ≤ M := by
    omega
  have e8 : M ^ 2 * 8 ≤ M ^ 3 := by rw [Nat.pow_succ M 2]; exact Nat.mul_le_mul_left _ e7
  have e9 : M * 8 ≤ M ^ 2 := by rw [Nat.pow_two]; exact Nat.mul_le_mul_left _ e7
  rw [Nat.mul_assoc] at h2
  omega

/-- A DFA with two equivalent states. -/
example : ∃ p d, Fa.dfa c!"a b\n-> x y x\n* y y z\nz y x" = some p ∧ Validate.dfa p = .ok d ∧ d.minimizeCost id id = 146 := by
  refine ⟨⟨[s 'a', s 'b'], [⟨s 'x', true, false, [s 'y', s 'x']⟩, ⟨s 'y', false, true, [s 'y', s 'z']⟩, ⟨s 'z', false, false, [s 'y', s 'x']⟩]⟩,
    ⟨[s 'a', s 'b'], [⟨s 'x', true, false, [1, 0]⟩, ⟨s 'y', false, true, [1, 2]⟩, ⟨s 'z', false, false, [1, 0]⟩], 0⟩, ?_⟩
  decide +kernel

/-- **C106** Reading an NFA and testing a word: quadratic in the length of the text, linear in the length of the word. -/
theorem C106_accepts (t : Str) (p : ParsedNfa) (n : Nfa) (h : Fa.nfa t = some p) (hn : Validate.nfa p = .ok n) (w : List Str) :
    readNfaCost t + n.acceptsCost w ≤ 362 * ((w.length + 1) * (t.length + 1) ^ 2) := by
  have h1 := C106_nfa_size t p n h hn
  have h2 := C93_accepts n (C39_content p n hn).2.1 w
  have h3 := C106_nfa t
  have h4 := Nat.pow_le_pow_left (show n.tableSize ≤ t.length + 1 by omega) 2
  have h5 := Nat.mul_le_mul_left (12 * (w.length + 1)) h4
  rw [Nat.mul_assoc 12 _ ((t.length + 1) ^ 2)] at h5
  have h6 : t.length + 1 ≤ (t.length + 1) ^ 2 := by rw [Nat.pow_two]; exact Nat.le_mul_of_pos_right _ (Nat.succ_pos _)
  have h7 : (t.length + 1) ^ 2 ≤ (w.length + 1) * (t.length + 1) ^ 2 := Nat.le_mul_of_pos_left _ (Nat.succ_pos _)
  omega

example : ∃ p n, Fa.nfa c!"eps b\n-> x {} {y x}\n* y {x} {}" = some p ∧ Validate.nfa p = .ok n ∧ n.acceptsCost [s 'b', s 'b'] = 30 := by
  refine ⟨⟨[.eps, .element (s 'b')], [⟨s 'x', true, false, [[], [s 'y', s 'x']]⟩, ⟨s 'y', false, true, [[s 'x'], []]⟩]⟩,
    ⟨[s 'b'], [⟨s 'x', true, false, [], [[1, 0]]⟩, ⟨s 'y', false, true, [0], [[]]⟩], 0⟩, ?_⟩
  decide +kernel

/-! ## Instances of the theorems of this file -/

example := C106_dfa c!"a b\n→ n n n"
example := C106_dfa_size c!"a b\n→ n n n" _ _ rfl rfl

end Dandy
