import Verif.Proofs.Regex
import Verif.Props.NfaEvaluator
/-! # C34, C35: conversion of regular expressions to NFAs -/

namespace Dandy
open Samples RegexTree

/-- **C34** The NFA built for an expression accepts a list of graphemes iff the expression matches it. -/
theorem C34_to_nfa_accepts (t : RegexTree) (w : Word) : (toNfa t).accepts w = true ↔ Matches t w := by
  rw [C02_nfa_accepts_iff _ (toNfa_wf t), toNfa_lang]

/-- **C34** The same with the language operations of Mathlib instead of the inductive definition of matching. -/
theorem C34_to_nfa_denotes (t : RegexTree) : {w : Word | (toNfa t).Lang w} = t.denote := by
  ext w
  exact (toNfa_lang t w).trans (matches_denote t w)

/-- `b*(a|ε|)b()`, with an empty alternative and an empty sequence. -/
def sampleRegex : RegexTree :=
  .seq [.rep (.chr (.grapheme ['b'])), .alt [.chr (.grapheme ['a']), .chr .epsilon, .seq []], .chr (.grapheme ['b']), .seq [], .alt [.chr .empty, .rep (.chr .empty)]]

example : (toNfa sampleRegex).accepts [s 'b', s 'b', s 'a', s 'b'] = true ∧ (toNfa sampleRegex).accepts [s 'b'] = true ∧
    (toNfa sampleRegex).accepts [s 'a', s 'a', s 'b'] = false ∧ (toNfa sampleRegex).accepts [] = false ∧
    (toNfa (.alt [])).accepts [] = false ∧ (toNfa (.seq [])).accepts [] = true := by decide +kernel

/-- **C35** The NFA is valid. -/
theorem C35_to_nfa_valid (t : RegexTree) : (toNfa t).WF := toNfa_wf t

/-- **C35** Its alphabet has exactly the graphemes of the expression, each once, in the order of their first occurrence. -/
theorem C35_to_nfa_alphabet (t : RegexTree) :
    (∀ g, g ∈ (toNfa t).alphabet ↔ g ∈ t.graphemes) ∧ (toNfa t).alphabet.Nodup ∧
    (toNfa t).alphabet.Pairwise (fun a b => t.graphemes.idxOf a < t.graphemes.idxOf b) := by
  rw [toNfa_alphabet]
  refine ⟨fun g => ?_, (foldl_chars t.graphemes [] List.nodup_nil).1, ?_⟩
  · rw [(foldl_chars t.graphemes [] List.nodup_nil).2]; simp
  · have := foldl_order t.graphemes [] [] (fun _ => Iff.rfl) List.Pairwise.nil
    simpa using this

/-- **C35** States are named by their index; state 1 is initial, state 0 is the only accepting one, and both exist. -/
theorem C35_to_nfa_states (t : RegexTree) :
    (toNfa t).initialState = 1 ∧ 2 < (toNfa t).states.length ∧
    ∀ (q : Nat) st, (toNfa t).states[q]? = some st → st.name = Nat.toDigits 10 q ∧ (st.initial = true ↔ q = 1) ∧
      (st.accepting = true ↔ q = 0) := by
  refine ⟨rfl, ?_, fun q st h => toNfa_flags t q st h⟩
  have h1 := (treeToNfa_facts t 2 [] 0).1.counter
  have h2 := (treeToNfa_facts t 2 [] 0).2
  rw [toNfa_length]; omega

example : (toNfa sampleRegex).alphabet = [s 'b', s 'a'] ∧ (toNfa sampleRegex).states.length = 20 := by decide +kernel

/-! ## Instances of the theorems of this file -/

example := C34_to_nfa_accepts (.seq [.rep (.chr (.grapheme (s 'a'))), .alt [.chr .empty, .chr (.grapheme (s 'b'))]]) [s 'a', s 'b']
example := C35_to_nfa_valid (.seq [.rep (.chr (.grapheme (s 'a'))), .alt [.chr .empty, .chr (.grapheme (s 'b'))]])
example := C35_to_nfa_alphabet (.seq [.rep (.chr (.grapheme (s 'a'))), .alt [.chr .empty, .chr (.grapheme (s 'b'))]])

end Dandy
