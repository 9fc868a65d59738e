import Verif.Proofs.ParseCostFa
import Verif.Proofs.ParseCostRegex
import Verif.Props.Sizes
import Verif.Model.Chars
/-! # C91: how long parsing takes -/

namespace Dandy
open Samples RegexTree RegexParser P

/-- **C91** Parsing the table of a DFA takes a number of steps that is linear in the length of the text, whether the text is accepted or not: nothing
is tried again and again. The steps are those of the parser of C43. -/
theorem C91_dfa : FaC.fullDfa.run = Fa.fullDfa ∧ ∀ text : Str, FaC.dfaCost text ≤ 191 * text.length + 242 :=
  ⟨rfl, FaC.dfaCost_le⟩

/-- **C91** The same for the table of an NFA. -/
theorem C91_nfa : FaC.fullNfa.run = Fa.fullNfa ∧ ∀ text : Str, FaC.nfaCost text ≤ 260 * text.length + 340 :=
  ⟨rfl, FaC.nfaCost_le⟩

/-- Steps for some tables, one of them rejected at its end. -/
example : FaC.dfaCost c!"a\n-> * x x" = 161 ∧ FaC.dfaCost c!"  a b # letters\n\n-> * x y x\n y x y # last\n" = 381 ∧
    FaC.nfaCost c!"ε a\n-> * x { x y } {}\n y {} {x}\n?" = 419 := by decide +kernel

/-- The steps of the parser of regular expressions with the copies made for `+` are those of the parser of C36, and the bound on the nesting of
parentheses that the model has does not matter. -/
theorem C91_regex_steps (cl : Str → Nat) (h : Segmentation cl) (text : Str) (d : Nat) (hd : (trim text).length < d) :
    (RegexC.expression nodes cl d).run (trim text) = fullRegex cl text ∧
    RegexC.regexCost nodes cl text = 4 + 2 * text.length + (RegexC.expression nodes cl d).cost (trim text) := by
  refine ⟨?_, ?_⟩
  · rw [RegexC.expression_run]
    exact expression_depth h (trim text).length (trim text) (Nat.le_refl _) d _ hd (by omega)
  · unfold RegexC.regexCost
    rw [RegexC.expression_depth_eq h nodes (trim text) _ d (by omega) hd]

private theorem cl1_apart' : LettersApart cl1 := by intro c s _ _; simp [cl1]

private theorem groupPlus_trim (text : Str) : groupPlus (trim text) ≤ groupPlus text ∧ (trim text).length ≤ text.length := by
  obtain ⟨a, b, h1, _⟩ := trimmed_trim text
  generalize trim text = c at h1
  subst h1
  have h2 := RegexC.groupPlus_append (a ++ c) b
  have h3 := RegexC.groupPlus_append a c
  simp only [List.length_append]
  omega

/-- **C91** (partial) Parsing a regular expression takes a linear number of steps, whether it is accepted or not, if no group in it is followed by
`+`. Missing: texts with `)+`, for which it is false (`C91_regex_linear_false`). -/
theorem C91_regex_linear_partial (cl : Str → Nat) (h : Segmentation cl) (text : Str) (hp : groupPlus text = 0) :
    RegexC.regexCost nodes cl text ≤ 130 * text.length + 64 := by
  obtain ⟨h1, h2⟩ := groupPlus_trim text
  have h3 := RegexC.expression_le h (trim text) (M := 1) (Nat.le_refl _) (by
    intro t u v r he _
    exfalso
    have e1 := RegexC.groupPlus_append u ('(' :: (v ++ ')' :: '+' :: r))
    have e2 := RegexC.groupPlus_cons '(' (v ++ ')' :: '+' :: r)
    have e3 := RegexC.groupPlus_append v (')' :: '+' :: r)
    have e4 : groupPlus (')' :: '+' :: r) = groupPlus r + 1 := rfl
    rw [← he] at e1
    omega) ((trim text).length + 1)
  unfold RegexC.regexCost
  omega

/-- **C91** In general, parsing a regular expression with `n` characters takes at most `(64n + 30)(3n * 2^p + 2) + 2n + 4` steps, if `)+` occurs `p`
times in it. -/
theorem C91_regex (cl : Str → Nat) (h : Segmentation cl) (text : Str) :
    RegexC.regexCost nodes cl text ≤ (64 * text.length + 30) * (3 * text.length * 2 ^ groupPlus text + 2) + 2 * text.length + 4 := by
  obtain ⟨h1, h2⟩ := groupPlus_trim text
  by_cases hp : groupPlus text = 0
  · have h3 := C91_regex_linear_partial cl h text hp
    rw [hp]
    cases hn : text.length with
    | zero => omega
    | succ n =>
      rw [hn] at h3
      have : (64 * (n + 1) + 30) * 2 ≤ (64 * (n + 1) + 30) * (3 * (n + 1) * 2 ^ 0 + 2) := Nat.mul_le_mul_left _ (by omega)
      omega
  · have hn : 1 ≤ text.length := by
      cases text with
      | nil => exact absurd rfl hp
      | cons _ _ => simp
    have hpow := Nat.pow_pos (n := groupPlus text) (show 0 < 2 by omega)
    have hM1 : 1 ≤ 3 * text.length * 2 ^ groupPlus text := by
      have := Nat.mul_le_mul (show 1 ≤ 3 * text.length by omega) (show 1 ≤ 2 ^ groupPlus text by omega)
      omega
    have h3 := RegexC.expression_le h (trim text) (M := 3 * text.length * 2 ^ groupPlus text) hM1 (by
      intro t u v r he hf
      obtain ⟨x, hx1, hx2⟩ := hf
      have e1 := RegexC.groupPlus_append u ('(' :: (v ++ ')' :: '+' :: r))
      have e2 := RegexC.groupPlus_cons '(' (v ++ ')' :: '+' :: r)
      have e3 := RegexC.groupPlus_append v (')' :: '+' :: r)
      have e5 : (trim text).length = u.length + (v.length + (r.length + 2) + 1) := by rw [he]; simp
      rw [← he] at e1
      refine hx1.trans (Nat.mul_le_mul (by omega) (Nat.pow_le_pow_right (by omega) (by omega)))) ((trim text).length + 1)
    have h4 : (1 + 3 * text.length * 2 ^ groupPlus text) * (64 * (trim text).length + 30) ≤
        (64 * text.length + 30) * (3 * text.length * 2 ^ groupPlus text + 2) := by
      rw [Nat.mul_comm]
      exact Nat.mul_le_mul (by omega) (by omega)
    unfold RegexC.regexCost
    omega

/-- Steps for some expressions: without `)+` they grow with the text only, also if a parenthesis is never closed. -/
example : groupPlus c!"(a|b)*a+(b)" = 0 ∧ RegexC.regexCost nodes cl1 c!"(a|b)*a+(b)" = 261 ∧ RegexC.regexCost nodes cl1 c!"((((((a" = 240 ∧
    RegexC.regexCost nodes cl1 c!"((((((((((((a" = 420 ∧ RegexC.regexCost nodes cl1 c!"((a)*)*" = 153 := by decide +kernel

mutual
private theorem graphemes_nodes : ∀ t : RegexTree, t.graphemes.length ≤ t.nodes
  | .seq ts => by rw [graphemes, nodes]; have := graphemesList_nodes ts; omega
  | .alt ts => by rw [graphemes, nodes]; have := graphemesList_nodes ts; omega
  | .rep t => by rw [graphemes, nodes]; have := graphemes_nodes t; omega
  | .chr (.grapheme _) => by rw [graphemes, nodes]; rfl
  | .chr .epsilon => by rw [graphemes, nodes]; exact Nat.zero_le _
  | .chr .empty => by rw [graphemes, nodes]; exact Nat.zero_le _
private theorem graphemesList_nodes : ∀ ts : List RegexTree, (graphemesList ts).length ≤ nodesList ts
  | [] => by rw [graphemesList, nodesList]; rfl
  | t :: ts => by
    rw [graphemesList, nodesList, List.length_append]
    have := graphemes_nodes t
    have := graphemesList_nodes ts
    omega
end

/-- **C91** With `+` after groups it is not linear, not even polynomial: `k` groups with a `+` inside of each other, `3k + 1` characters, take at least
`2^k` steps. -/
theorem C91_regex_linear_false (cl : Str → Nat) (h : Segmentation cl) (hcl : LettersApart cl) (k : Nat) :
    (nestedPlus k).length = 3 * k + 1 ∧ 2 ^ k ≤ RegexC.regexCost nodes cl (nestedPlus k) := by
  obtain ⟨h1, t, h2, h3, _⟩ := C83_regex_linear_false cl h hcl k
  refine ⟨h1, ?_⟩
  have h4 := (regex_some (trimmed_trim _)).1 h2
  have h5 := RegexC.expression_paid h ((trim (nestedPlus k)).length + 1) (trim (nestedPlus k)) t [] (by rw [RegexC.expression_run]; exact h4)
  have h6 := graphemes_nodes t
  unfold RegexC.regexCost
  omega

/-- **C91** So no linear bound holds for all regular expressions. -/
theorem C91_regex_bound_false (cl : Str → Nat) (h : Segmentation cl) (hcl : LettersApart cl) (A B : Nat) :
    ∃ text : Str, A * text.length + B < RegexC.regexCost nodes cl text := by
  obtain ⟨h1, h2⟩ := C91_regex_linear_false cl h hcl (2 * (6 * A + B))
  refine ⟨_, Nat.lt_of_lt_of_le ?_ h2⟩
  rw [h1]
  generalize hn : 6 * A + B = n
  have h3 : n + 1 ≤ 2 ^ n := Nat.lt_two_pow_self
  have h4 : (n + 1) * (n + 1) ≤ 2 ^ (2 * n) := by
    rw [Nat.two_mul, Nat.pow_add]
    exact Nat.mul_le_mul h3 h3
  have h5 : n * n = 6 * (A * n) + B * n := by
    calc n * n = (6 * A + B) * n := by rw [hn]
      _ = _ := by ring
  have h6 : (n + 1) * (n + 1) = n * n + 2 * n + 1 := by ring
  have h7 : A * (3 * (2 * n) + 1) = 6 * (A * n) + A := by ring
  omega

/-- The assumptions are met by a segmentation with one character at a time. -/
example : Segmentation cl1 ∧ LettersApart cl1 := ⟨cl1_seg, cl1_apart'⟩

/-- The steps double with every further `(..)+`. -/
example : nestedPlus 2 = c!"((a)+)+" ∧ RegexC.regexCost nodes cl1 (nestedPlus 2) = 158 ∧ RegexC.regexCost nodes cl1 (nestedPlus 6) = 518 ∧
    RegexC.regexCost nodes cl1 (nestedPlus 7) = 755 ∧ RegexC.regexCost nodes cl1 (nestedPlus 8) = 1184 := by decide +kernel

/-! ## Instances of the theorems of this file -/

example := C91_dfa 
example := C91_regex_steps cl1 cl1_seg c!"(a|b)+" 9 (by decide)
example := C91_regex_linear_partial cl1 cl1_seg c!"(a|b)*" (by decide)

end Dandy
