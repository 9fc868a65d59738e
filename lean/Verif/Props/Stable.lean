import Verif.Props.RegexParser
import Verif.Proofs.RegexStable
/-! # Printing an expression again and again -/

namespace Dandy
open RegexParser RegexTree Samples

/-- **C127** Printing, reading and printing again changes nothing but white space at the ends: if an expression read from a text is
printed, and the printed text is read again, the second printed text is the first one without the white space around it, and reading it
gives the same tree as the first printed text. So the tree stays the same from the second reading on. The conditions are those under which
the language survives (C37). If nothing but white space is printed, it is not read. -/
theorem C127_stable (cl : Str → Nat) (h : Segmentation cl) (text : Str) (t : RegexTree) (hp : regex cl text = some t)
    (hshape : ∀ g ∈ t.graphemes, (∃ c g', g = c :: g' ∧ ¬ IsReserved c) ∨ (∃ c, g = [c] ∧ IsReserved c ∧ c.toNat < 128))
    (hcluster : ∀ g ∈ t.graphemes, ∀ r, (r = [] ∨ (∃ c r', r = c :: r' ∧ IsReserved c) ∨ ∃ g' ∈ t.graphemes, g' <+: r) →
      cl (g ++ r) = g.length)
    (hends : ∀ g ∈ t.graphemes, (∀ c ∈ g, WhiteSpace c) ∨ (∀ c ∈ g.head?, ¬ WhiteSpace c) ∧ ∀ c ∈ g.getLast?, ¬ WhiteSpace c) :
    ((∀ c ∈ toText t, WhiteSpace c) ∧ regex cl (toText t) = none) ∨
      ∃ t', regex cl (toText t) = some t' ∧ Trimmed (toText t) (toText t') ∧ regex cl (toText t') = some t' := by
  rcases regex_stable h (expression_stable h _ _ _ _ ((regex_some (trimmed_trim text)).1 hp)) ⟨hshape, hcluster⟩ hends with h1 | ⟨t', h1, h2⟩
  · exact Or.inl h1
  · refine Or.inr ⟨t', h1, h2, ?_⟩
    have h3 : Trimmed (toText t') (toText t') := by
      obtain ⟨_, _, _, _, _, h4, h5⟩ := h2
      exact ⟨[], [], by simp, by simp, by simp, h4, h5⟩
    exact (regex_some h3).2 ((regex_some h2).1 h1)

/-- **C127** If the printed text does not begin or end with white space, reading and printing it gives the very same text. -/
theorem C127_same_text (cl : Str → Nat) (h : Segmentation cl) (text : Str) (t : RegexTree) (hp : regex cl text = some t)
    (hshape : ∀ g ∈ t.graphemes, (∃ c g', g = c :: g' ∧ ¬ IsReserved c) ∨ (∃ c, g = [c] ∧ IsReserved c ∧ c.toNat < 128))
    (hcluster : ∀ g ∈ t.graphemes, ∀ r, (r = [] ∨ (∃ c r', r = c :: r' ∧ IsReserved c) ∨ ∃ g' ∈ t.graphemes, g' <+: r) →
      cl (g ++ r) = g.length)
    (hws : Trimmed (toText t) (toText t)) :
    ∃ t', regex cl (toText t) = some t' ∧ toText t' = toText t := by
  obtain ⟨xs, h1, h2, h3⟩ := stable_items t (expression_stable h _ _ _ _ ((regex_some (trimmed_trim text)).1 hp))
  have hne : xs ≠ [] := by
    rintro rfl
    obtain ⟨t', h4, _⟩ := C37_roundtrip_partial cl h text t hp hshape hcluster hws
    rw [seqText] at h2
    rw [← h2] at hws h4
    have := expression_consumes h _ _ _ _ ((regex_some hws).1 h4)
    simp at this
  obtain ⟨t', h4, h5⟩ := regex_stable_seq (text := toText t) h hne ((stableList_iff xs).2 fun x hx => (h1 x hx).2) ⟨hshape, hcluster⟩
    (fun g hg => h3 ▸ hg) (h2.symm ▸ hws)
  exact ⟨t', h4, h5.trans h2⟩

/-- **C127** In particular for expressions whose elements are single ASCII characters other than the carriage return. -/
theorem C127_ascii (cl : Str → Nat) (h : Segmentation cl)
    (hascii : ∀ (c : Char) (r : Str), c.toNat < 128 → c ≠ '\r' → (∀ d ∈ r.head?, d.toNat < 128 ∨ d = 'ε' ∨ d = '∅') → cl (c :: r) = 1)
    (text : Str) (t : RegexTree) (hp : regex cl text = some t)
    (hg : ∀ g ∈ t.graphemes, ∃ c : Char, g = [c] ∧ c.toNat < 128 ∧ c ≠ '\r') :
    ((∀ c ∈ toText t, WhiteSpace c) ∧ regex cl (toText t) = none) ∨
      ∃ t', regex cl (toText t) = some t' ∧ Trimmed (toText t) (toText t') ∧ regex cl (toText t') = some t' := by
  obtain ⟨h1, h2, h3⟩ := ascii_conditions hascii hg
  exact C127_stable cl h text t hp h1 h2 h3

/-- **C127** Expressions that are printed in the same way are read in the same way, so they match the same words: the printed text
determines the language (under the same conditions for both). -/
theorem C127_text_language (cl : Str → Nat) (h : Segmentation cl) (text₁ text₂ : Str) (t₁ t₂ : RegexTree)
    (hp₁ : regex cl text₁ = some t₁) (hp₂ : regex cl text₂ = some t₂)
    (hshape : ∀ g ∈ t₁.graphemes ++ t₂.graphemes, (∃ c g', g = c :: g' ∧ ¬ IsReserved c) ∨ (∃ c, g = [c] ∧ IsReserved c ∧ c.toNat < 128))
    (hcluster : ∀ g ∈ t₁.graphemes ++ t₂.graphemes, ∀ r,
      (r = [] ∨ (∃ c r', r = c :: r' ∧ IsReserved c) ∨ ∃ g' ∈ t₁.graphemes ++ t₂.graphemes, g' <+: r) → cl (g ++ r) = g.length)
    (hws : Trimmed (toText t₁) (toText t₁)) (htext : toText t₁ = toText t₂) : t₁.graphemes = t₂.graphemes ∧ ∀ w, Matches t₁ w ↔ Matches t₂ w := by
  obtain ⟨u, h1, h2, h3⟩ := C37_roundtrip_partial cl h text₁ t₁ hp₁ (fun g hg => hshape g (List.mem_append_left _ hg))
    (fun g hg r hr => hcluster g (List.mem_append_left _ hg) r (by
      rcases hr with hr | hr | ⟨g', hg', hr⟩
      · exact Or.inl hr
      · exact Or.inr (Or.inl hr)
      · exact Or.inr (Or.inr ⟨g', List.mem_append_left _ hg', hr⟩))) hws
  obtain ⟨v, g1, g2, g3⟩ := C37_roundtrip_partial cl h text₂ t₂ hp₂ (fun g hg => hshape g (List.mem_append_right _ hg))
    (fun g hg r hr => hcluster g (List.mem_append_right _ hg) r (by
      rcases hr with hr | hr | ⟨g', hg', hr⟩
      · exact Or.inl hr
      · exact Or.inr (Or.inl hr)
      · exact Or.inr (Or.inr ⟨g', List.mem_append_right _ hg', hr⟩))) (htext ▸ hws)
  rw [htext, g1] at h1
  cases h1
  exact ⟨h2.symm.trans g2, fun w => (h3 w).symm.trans (g3 w)⟩

/-- **C127** The tree itself is not kept: parentheses around a sequence within a sequence are not printed. -/
theorem C127_tree_false : ∃ t t', regex cl1 c!"a(bc)" = some t ∧ regex cl1 (toText t) = some t' ∧ t' ≠ t ∧ toText t' = toText t := by
  refine ⟨_, _, rfl, rfl, ?_, by decide⟩
  intro h
  have := congrArg (fun t => match t with | .seq ts => ts.length | _ => 0) h
  revert this
  decide

/-- **C127** With a combining mark on an escaped character, which is printed without the backslash, the text changes: the star becomes an
operator. -/
theorem C127_mark_false : ∃ t t', regex cl2 c!"a\\*\u0301" = some t ∧ toText t = c!"a*\u0301" ∧ regex cl2 (toText t) = some t' ∧
    toText t' = c!"(a)*\u0301" ∧ ¬ Trimmed (toText t) (toText t') := by
  refine ⟨_, _, rfl, by decide, rfl, by decide, ?_⟩
  intro h
  exact absurd (trim_eq h) (by decide)

/-- Nested sequences, alternations in parentheses, white space at the ends, and white space only. -/
example : (∃ t t', regex cl1 c!"(a(b|c)+)(\\*|d)" = some t ∧ toText t = c!"a(b|c)((b|c))*(\\*|d)" ∧ regex cl1 (toText t) = some t' ∧
      toText t' = toText t ∧ ∀ g ∈ t.graphemes, ∃ c : Char, g = [c] ∧ c.toNat < 128 ∧ c ≠ '\r') ∧
    (∃ t t', regex cl1 c!"( a)b" = some t ∧ toText t = c!" ab" ∧ regex cl1 (toText t) = some t' ∧ toText t' = c!"ab" ∧
      regex cl1 (toText t') = some t') ∧
    (∃ t, regex cl1 c!"( )" = some t ∧ toText t = c!" " ∧ regex cl1 (toText t) = none) ∧
    (∃ t₁ t₂, regex cl1 c!"a(bc)" = some t₁ ∧ regex cl1 c!"(ab)c" = some t₂ ∧ toText t₁ = toText t₂) := by
  refine ⟨⟨_, _, rfl, by decide, rfl, by decide, ?_⟩, ⟨_, _, rfl, by decide, rfl, by decide, rfl⟩, ⟨_, rfl, by decide, by decide⟩,
    ⟨_, _, rfl, rfl, by decide⟩⟩
  intro g hg
  have : g ∈ [['a'], ['b'], ['c'], ['b'], ['c'], ['*'], ['d']] := hg
  simp only [List.mem_cons, List.not_mem_nil, or_false] at this
  rcases this with rfl | rfl | rfl | rfl | rfl | rfl | rfl <;> exact ⟨_, rfl, by decide, by decide⟩

end Dandy
