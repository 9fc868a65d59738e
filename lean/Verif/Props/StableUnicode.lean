import Verif.Props.Stable
import Verif.Props.Unicode
import Verif.Proofs.Graphemes
/-! # Printing an expression and reading it with the rules of Unicode -/

namespace Dandy
open RegexParser Samples Unicode
open RegexTree (toText)

/-- After a character that has not the property Prepend, there is a boundary before every reserved character. -/
private theorem reserved_break {P : Unicode.Table} (hA : P.Ascii)
    (hE : ∀ d, d = 'ε' ∨ d = '∅' → P.gcb d = .other ∧ P.pict d = false ∧ P.incb d = .none) {g : Str} {c : Char} (hc : IsReserved c)
    (hg : ∀ e ∈ g.getLast?, P.gcb e ≠ .prepend) : keeps P g.reverse c = false := by
  have h1 : P.gcb c = .other ∧ P.pict c = false ∧ P.incb c = .none := by
    rcases hc with rfl | rfl | rfl | rfl | rfl | rfl | rfl | rfl
    · exact hE _ (Or.inr rfl)
    · exact hE _ (Or.inl rfl)
    all_goals exact ⟨hA.other _ (by decide) (by decide), hA.pict _ (by decide), hA.incb _ (by decide)⟩
  obtain ⟨g1, g2, g3⟩ := h1
  cases hr : g.reverse with
  | nil => rfl
  | cons d left =>
    have hd : P.gcb d ≠ .prepend := hg d (by rw [← List.head?_reverse, hr]; rfl)
    unfold keeps
    dsimp only
    have hpr : pairRule (P.gcb d) (P.gcb c) = some false ∨ pairRule (P.gcb d) (P.gcb c) = none := by
      rw [g1]
      revert hd
      cases P.gcb d <;> decide
    rcases hpr with e | e
    · rw [e]; rfl
    · rw [e]
      simp [conjunct, emoji, flag, g1, g2, g3]

/-- A cluster with a boundary after it is the first one. -/
private theorem first_of_break {P : Unicode.Table} (hP : P.Consistent) {g r : Str} (hg : Whole P g) (h : ∀ d ∈ r.head?, keeps P g.reverse d = false) :
    graphemes P (g ++ r) = g :: graphemes P r ∧ firstCluster P (g ++ r) = g.length := by
  obtain ⟨h1, h2⟩ := good_graphemes hP r
  have h3 := good_unique hP (Good.cons g _ hg (by rw [h2]; exact h) h1)
  rw [List.flatten_cons, h2] at h3
  refine ⟨h3, ?_⟩
  unfold firstCluster
  rw [h3]
  rfl

/-- The elements of an expression that was read are single clusters. -/
private theorem elements_whole {P : Unicode.Table} (hP : P.Consistent) {text : Str} {t : RegexTree} (hp : regex (firstCluster P) text = some t) :
    ∀ g ∈ t.graphemes, Whole P g := by
  refine expression_allG (segmentation hP) (Q := Whole P) ?_ _ _ _ _ ((regex_some (trimmed_trim text)).1 hp)
  intro s hs
  obtain ⟨g, y, h1, h2, _, h4⟩ := graphemes_first hP hs
  have : firstCluster P s = g.length := by unfold firstCluster; rw [h4]; rfl
  rw [this, h1, List.take_left]
  exact h2

/-- The conditions of C37 and C127, from conditions on the elements alone. -/
private theorem unicode_conditions {P : Unicode.Table} (hP : P.Consistent) (hA : P.Ascii)
    (hE : ∀ d, d = 'ε' ∨ d = '∅' → P.gcb d = .other ∧ P.pict d = false ∧ P.incb d = .none) {gs : List Str} (hw : ∀ g ∈ gs, Whole P g)
    (hlast : ∀ g ∈ gs, ∀ e ∈ g.getLast?, P.gcb e ≠ .prepend) (hpair : ∀ a ∈ gs, ∀ b ∈ gs, graphemes P (a ++ b) = [a, b]) :
    ∀ g ∈ gs, ∀ r, (r = [] ∨ (∃ c r', r = c :: r' ∧ IsReserved c) ∨ ∃ g' ∈ gs, g' <+: r) → firstCluster P (g ++ r) = g.length := by
  intro g hg r hr
  refine (first_of_break hP (hw g hg) ?_).2
  rcases hr with rfl | ⟨c, r', rfl, hc⟩ | ⟨g', hg', r', rfl⟩
  · simp
  · intro d hd
    cases hd
    exact reserved_break hA hE hc (hlast g hg)
  · have h1 : Good P [g, g'] := (good_iff hP).2 (by simpa using hpair g hg g' hg')
    obtain ⟨_, h2, h3⟩ := good_pair.1 h1
    intro d hd
    refine h3 d ?_
    cases g' with
    | nil => exact absurd rfl h2.1
    | cons x y => exact hd

/-- **C37** (partial) By the rules of Unicode, what is printed for a parsed expression parses again, to an expression with the same language
and the same elements, if no two elements join when written one after the other, none of them ends with a character with the property
Prepend, every element begins with a character that is not reserved or is a single reserved ASCII character, and the printed text does not
begin or end with white space. -/
theorem C37_roundtrip_unicode_partial (P : Unicode.Table) (hP : P.Consistent) (hA : P.Ascii)
    (hE : ∀ d, d = 'ε' ∨ d = '∅' → P.gcb d = .other ∧ P.pict d = false ∧ P.incb d = .none)
    (text : Str) (t : RegexTree) (hp : regex (firstCluster P) text = some t)
    (hshape : ∀ g ∈ t.graphemes, (∃ c g', g = c :: g' ∧ ¬ IsReserved c) ∨ (∃ c, g = [c] ∧ IsReserved c ∧ c.toNat < 128))
    (hlast : ∀ g ∈ t.graphemes, ∀ e ∈ g.getLast?, P.gcb e ≠ .prepend)
    (hpair : ∀ a ∈ t.graphemes, ∀ b ∈ t.graphemes, graphemes P (a ++ b) = [a, b])
    (hws : Trimmed (toText t) (toText t)) :
    ∃ t', regex (firstCluster P) (toText t) = some t' ∧ t'.graphemes = t.graphemes ∧ ∀ w, Matches t' w ↔ Matches t w :=
  C37_roundtrip_partial _ (segmentation hP) text t hp hshape (unicode_conditions hP hA hE (elements_whole hP hp) hlast hpair) hws

/-- **C37** For elements in sequence the condition is exact: a sequence of elements without reserved characters, not empty and without white
space around it, is printed as the text of all of them, which is always read, and the language is the same if and only if the rules of
Unicode split that text into just these elements. -/
theorem C37_unicode_sequence_iff (P : Unicode.Table) (hP : P.Consistent) (gs : List Str) (hne : gs.flatten ≠ [])
    (hr : ∀ c ∈ gs.flatten, ¬ IsReserved c) (hws : Trimmed gs.flatten gs.flatten) :
    toText (.seq (gs.map fun g => .chr (.grapheme g))) = gs.flatten ∧ ∃ t', regex (firstCluster P) gs.flatten = some t' ∧
      ((∀ w, Matches t' w ↔ Matches (.seq (gs.map fun g => .chr (.grapheme g))) w) ↔ graphemes P gs.flatten = gs) := by
  have h1 : ∀ gs : List Str, (∀ c ∈ gs.flatten, ¬ IsReserved c) → RegexTree.seqText (gs.map fun g => .chr (.grapheme g)) = gs.flatten := by
    intro gs
    induction gs with
    | nil => intro _; rfl
    | cons g gs ih =>
      intro h
      rw [List.map_cons, RegexTree.seqText, ih (fun c hc => h c (by simp [hc])), List.flatten_cons, toText]
      congr 1
      unfold RegexTree.graphemeText
      rw [if_neg]
      cases g with
      | nil => simp [RegexTree.byteLen]
      | cons c g =>
        have : ¬ IsReserved c := h c (by simp)
        simp only [Bool.and_eq_true, not_and]
        intro _ h2
        exact this ((reserved_iff c).1 h2)
  have h2 : ∀ (gs : List Str) (w : Word), Matches (.seq (gs.map fun g => .chr (.grapheme g))) w ↔ w = gs := by
    intro gs
    induction gs with
    | nil =>
      intro w
      constructor
      · intro h; cases h; rfl
      · rintro rfl; exact .seqNil
    | cons g gs ih =>
      intro w
      constructor
      · intro h
        cases h with
        | seqCons a b =>
          cases a
          rw [(ih _).1 b]
          rfl
      · rintro rfl
        exact Matches.seqCons (.grapheme g) ((ih _).2 rfl)
  obtain ⟨t', h3, h4, _⟩ := expression_complete (segmentation hP) (ExprL.one (literal_seq hP _ hne hr)) (Nat.lt_succ_self _)
  refine ⟨by rw [toText, h1 gs hr], t', (regex_some hws).2 h3, ?_⟩
  have h5 : ∀ w, Matches t' w ↔ w = graphemes P gs.flatten := by
    intro w
    rw [matches_denote, h4]
    rfl
  constructor
  · intro h
    exact (h2 _ _).1 ((h _).1 ((h5 _).2 rfl))
  · intro h w
    rw [h5, h2, h]

/-- **C127** By the rules of Unicode, printing, reading and printing again changes nothing but white space at the ends, under these conditions
on the elements. -/
theorem C127_unicode (P : Unicode.Table) (hP : P.Consistent) (hA : P.Ascii)
    (hE : ∀ d, d = 'ε' ∨ d = '∅' → P.gcb d = .other ∧ P.pict d = false ∧ P.incb d = .none)
    (text : Str) (t : RegexTree) (hp : regex (firstCluster P) text = some t)
    (hshape : ∀ g ∈ t.graphemes, (∃ c g', g = c :: g' ∧ ¬ IsReserved c) ∨ (∃ c, g = [c] ∧ IsReserved c ∧ c.toNat < 128))
    (hlast : ∀ g ∈ t.graphemes, ∀ e ∈ g.getLast?, P.gcb e ≠ .prepend)
    (hpair : ∀ a ∈ t.graphemes, ∀ b ∈ t.graphemes, graphemes P (a ++ b) = [a, b])
    (hends : ∀ g ∈ t.graphemes, (∀ c ∈ g, WhiteSpace c) ∨ (∀ c ∈ g.head?, ¬ WhiteSpace c) ∧ ∀ c ∈ g.getLast?, ¬ WhiteSpace c) :
    ((∀ c ∈ toText t, WhiteSpace c) ∧ regex (firstCluster P) (toText t) = none) ∨
      ∃ t', regex (firstCluster P) (toText t) = some t' ∧ Trimmed (toText t) (toText t') ∧ regex (firstCluster P) (toText t') = some t' :=
  C127_stable _ (segmentation hP) text t hp hshape (unicode_conditions hP hA hE (elements_whole hP hp) hlast hpair) hends

/-- Elements of several characters: an accented letter, a flag, a family, and an escaped star; the operators are between them. -/
example : ∃ t, regex (firstCluster sampleTable) c!"(e\u0301|🇸🇪)+\\*👨\u200D👧*" = some t ∧
    toText t = c!"(e\u0301|🇸🇪)((e\u0301|🇸🇪))*\\*(👨\u200D👧)*" ∧
    (∀ g ∈ t.graphemes, (∃ c g', g = c :: g' ∧ ¬ IsReserved c) ∨ (∃ c, g = [c] ∧ IsReserved c ∧ c.toNat < 128)) ∧
    (∀ g ∈ t.graphemes, ∀ e ∈ g.getLast?, sampleTable.gcb e ≠ .prepend) ∧
    (∀ a ∈ t.graphemes, ∀ b ∈ t.graphemes, graphemes sampleTable (a ++ b) = [a, b]) ∧
    (∀ g ∈ t.graphemes, (∀ c ∈ g, WhiteSpace c) ∨ (∀ c ∈ g.head?, ¬ WhiteSpace c) ∧ ∀ c ∈ g.getLast?, ¬ WhiteSpace c) ∧
    Trimmed (toText t) (toText t) := by
  refine ⟨_, rfl, by decide +kernel, ?_, by decide +kernel, by decide +kernel, ?_, ⟨[], [], by simp, by simp, by simp, ?_, ?_⟩⟩
  · intro g hg
    have : g ∈ [c!"e\u0301", c!"🇸🇪", c!"e\u0301", c!"🇸🇪", c!"*", c!"👨\u200D👧"] := hg
    simp only [List.mem_cons, List.not_mem_nil, or_false] at this
    rcases this with rfl | rfl | rfl | rfl | rfl | rfl
    · exact Or.inl ⟨_, _, rfl, by simp [IsReserved]⟩
    · exact Or.inl ⟨_, _, rfl, by simp [IsReserved]⟩
    · exact Or.inl ⟨_, _, rfl, by simp [IsReserved]⟩
    · exact Or.inl ⟨_, _, rfl, by simp [IsReserved]⟩
    · exact Or.inr ⟨_, rfl, by simp [IsReserved], by decide⟩
    · exact Or.inl ⟨_, _, rfl, by simp [IsReserved]⟩
  · unfold WhiteSpace; decide +kernel
  · unfold WhiteSpace; decide +kernel
  · unfold WhiteSpace; decide +kernel

/-- Two regional indicators that were read apart are printed together, and are one flag. An accent that was read apart is put on the letter. -/
example : (∃ t, regex (firstCluster sampleTable) c!"(🇸)(🇪)" = some t ∧ t.graphemes = [c!"🇸", c!"🇪"] ∧ toText t = c!"🇸🇪") ∧
    graphemes sampleTable [c!"🇸", c!"🇪"].flatten ≠ [c!"🇸", c!"🇪"] ∧
    graphemes sampleTable [c!"a", c!"🇸🇪", c!"b"].flatten = [c!"a", c!"🇸🇪", c!"b"] ∧
    (∃ t, regex (firstCluster sampleTable) c!"(e)\u0301" = some t ∧ t.graphemes = [c!"e", c!"\u0301"] ∧ toText t = c!"e\u0301") :=
  ⟨⟨_, rfl, by decide +kernel, by decide +kernel⟩, by decide +kernel, by decide +kernel, ⟨_, rfl, by decide +kernel, by decide +kernel⟩⟩

end Dandy
