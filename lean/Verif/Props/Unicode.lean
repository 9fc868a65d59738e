import Verif.Proofs.Unicode
import Verif.Props.Docs
import Verif.Props.Graphemes
import Verif.Props.RegexParser
import Verif.Spec.Sizes
import Verif.Spec.Tests
/-! # Grapheme clusters by the rules of Unicode: C94 -/

namespace Dandy
open Samples RegexParser P Unicode
open RegexTree (toNfa)

/-! ## The segmentation -/

/-- **C94** The modelled segmentation splits a text exactly at the boundaries of the standard, and no other list of texts does. -/
theorem C94_rules (P : Unicode.Table) (hP : P.Consistent) (t : Str) (gs : List Str) : SplitByRules P t gs ↔ gs = graphemes P t := by
  constructor
  · intro h
    rw [← h.flatten]
    exact (good_unique hP (good_of_split hP h)).symm
  · rintro rfl
    have h := good_graphemes hP t
    have h2 := split_of_good hP h.1
    rwa [h.2] at h2

/-- **C94** The rules meet what the claims about `accepts_graphemes`, `graphemes_only` and the parser of regular expressions assume
about the segmentation. -/
theorem C94_assumptions (P : Unicode.Table) (hP : P.Consistent) :
    Clusters (graphemes P) ∧ Segmentation (firstCluster P) ∧ FirstCluster (firstCluster P) (graphemes P) :=
  ⟨clusters hP, segmentation hP, firstCluster_spec hP⟩

private theorem first_one {P : Unicode.Table} (hP : P.Consistent) {c : Char} {r : Str} (h : ∀ d ∈ r.head?, keeps P [c] d = false) :
    firstCluster P (c :: r) = 1 ∧ graphemes P (c :: r) = [c] :: graphemes P r := by
  have h2 := good_graphemes hP r
  have h3 : Good P ([c] :: graphemes P r) := by
    refine .cons _ _ (whole_single c) ?_ h2.1
    rw [h2.2]; exact h
  have h4 := good_unique hP h3
  rw [List.flatten_cons, h2.2, List.singleton_append] at h4
  refine ⟨?_, h4⟩
  unfold firstCluster
  rw [h4]; rfl

private theorem ascii_break {P : Unicode.Table} (hA : P.Ascii) {c d : Char} (hc : c.toNat < 128) (hd : d.toNat < 128)
    (h : ¬ (c = '\r' ∧ d = '\n')) : keeps P [c] d = false := by
  by_contra hk
  exact h ((keeps_ascii hA hc hd).1 (by simpa using hk))

/-- **C94** The rules meet what the claims about ASCII texts assume: the segmentation breaks between ASCII characters, except
inside of `\r\n`. -/
theorem C94_ascii_assumptions (P : Unicode.Table) (hP : P.Consistent) (hA : P.Ascii) :
    LettersApart (firstCluster P) ∧ PropTests.BreaksLetters (graphemes P) ∧
    ((∀ d, d = 'ε' ∨ d = '∅' → P.gcb d = .other ∧ P.pict d = false ∧ P.incb d = .none) → BreaksAscii (firstCluster P)) := by
  have hal : ∀ c : Char, c.isAlpha = true → c.toNat < 128 ∧ c ≠ '\r' := by
    intro c hc
    have h1 : c.toNat < 128 := by
      simp only [Char.isAlpha, Char.isUpper, Char.isLower, Bool.or_eq_true, Bool.and_eq_true, decide_eq_true_eq] at hc
      rcases hc with ⟨_, h⟩ | ⟨_, h⟩
      · exact Nat.lt_of_le_of_lt (UInt32.le_iff_toNat_le.1 h) (by decide)
      · exact Nat.lt_of_le_of_lt (UInt32.le_iff_toNat_le.1 h) (by decide)
    refine ⟨h1, ?_⟩
    rintro rfl
    revert hc; decide
  refine ⟨?_, ?_, ?_⟩
  · intro c r hc hr
    obtain ⟨h1, h2⟩ := hal c hc
    exact (first_one hP (fun d hd => ascii_break hA h1 (hr d hd) (fun h => h2 h.1))).1
  · intro t
    induction t with
    | nil => intro _; exact graphemes_nil
    | cons c t ih =>
      intro ht
      have hl : ∀ x ∈ c :: t, x.toNat < 128 ∧ x ≠ '\r' := by
        intro x hx
        obtain ⟨h1, h2⟩ := ht x hx
        refine ⟨Nat.lt_of_le_of_lt (UInt32.le_iff_toNat_le.1 (Char.le_def.1 h2)) (by decide), ?_⟩
        rintro rfl
        revert h1; decide
      rw [(first_one hP (fun d hd => ascii_break hA (hl c (by simp)).1 (hl d (by simp [List.mem_of_mem_head? hd])).1
        (fun h => (hl c (by simp)).2 h.1))).2, ih (fun x hx => ht x (by simp [hx]))]
      rfl
  · intro hs c r hc hcr hr
    refine (first_one hP (fun d hd => ?_)).1
    rcases hr d hd with h | h
    · exact ascii_break hA hc h (fun h => hcr h.1)
    · obtain ⟨h1, h2, h3⟩ := hs d h
      have hc' : P.gcb c = .control ∨ P.gcb c = .lf ∨ P.gcb c = .other := by
        by_cases e : c = '\n'
        · rw [e, hA.lf]; simp
        · by_cases e2 : c.toNat < 32 ∨ c.toNat = 127
          · rw [hA.control c e2 hcr e]; simp
          · rw [hA.other c (by omega) (by omega)]; simp
      unfold keeps
      dsimp only
      rw [h1]
      rcases hc' with e | e | e <;> rw [e] <;> simp [pairRule, conjunct, emoji, flag, h1, h2, h3]

/-! ## Words and their texts -/

/-- **C94** A word is the list of the clusters of its concatenation iff each of its elements is a single cluster and no two
neighbours join: it suffices to look at pairs. -/
theorem C94_pairs (P : Unicode.Table) (hP : P.Consistent) (w : Word) :
    graphemes P w.flatten = w ↔ (∀ e ∈ w, graphemes P e = [e]) ∧ w.IsChain (fun a b => graphemes P (a ++ b) = [a, b]) := by
  rw [← good_iff hP, good_chain]
  have h1 : ∀ a b : Str, Good P [a, b] ↔ graphemes P (a ++ b) = [a, b] := by
    intro a b
    rw [good_iff hP]; simp
  simp only [whole_iff hP, h1]

private theorem chain_of_pairs {R : Str → Str → Prop} : ∀ (w : Word), (∀ a ∈ w, ∀ b ∈ w, R a b) → w.IsChain R
  | [], _ => .nil
  | [_], _ => .singleton _
  | a :: b :: w, h => .cons_cons (h a (by simp) b (by simp)) (chain_of_pairs (b :: w) (fun x hx y hy => h x (by simp [hx]) y (by simp [hy])))

private theorem agrees {P : Unicode.Table} (hP : P.Consistent) {al : List Str} (h1 : ∀ e ∈ al, graphemes P e = [e])
    (h2 : ∀ a ∈ al, ∀ b ∈ al, graphemes P (a ++ b) = [a, b]) {w : Word} (hw : ∀ e ∈ w, e ∈ al) : graphemes P w.flatten = w :=
  (C94_pairs P hP w).2 ⟨fun e he => h1 e (hw e he), chain_of_pairs w (fun a ha b hb => h2 a (hw a ha) b (hw b hb))⟩

/-- **C94** The documentation of `graphemes_only` holds ("one may use accepts_graphemes instead of accepts") if in addition no two
elements of the alphabet join: the two methods agree on every word over the alphabet, and a text is accepted iff it is the
concatenation of an accepted word. -/
theorem C94_dfa_interchangeable (P : Unicode.Table) (hP : P.Consistent) (d : Dfa) (hd : d.WF) (h1 : d.graphemesOnly (graphemes P) = true)
    (h2 : ∀ a ∈ d.alphabet, ∀ b ∈ d.alphabet, graphemes P (a ++ b) = [a, b]) :
    (∀ w : Word, (∀ e ∈ w, e ∈ d.alphabet) → d.acceptsGraphemes (graphemes P) w.flatten = d.accepts w) ∧
    ∀ t, d.acceptsGraphemes (graphemes P) t = true ↔ ∃ w, d.accepts w = true ∧ w.flatten = t := by
  have h1' := (C60_graphemes_only (graphemes P) (clusters hP) d d.toNfa).1.1 h1
  refine ⟨fun w hw => (C60_agrees (graphemes P) d d.toNfa w (agrees hP h1' h2 hw)).1, fun t => ⟨fun h => ?_, ?_⟩⟩
  · exact ⟨graphemes P t, h, (clusters hP).flatten t⟩
  · rintro ⟨w, hw, rfl⟩
    have hov : ∀ e ∈ w, e ∈ d.alphabet := by
      intro e he
      by_contra hc
      rw [C01_dfa_rejects_foreign d hd w e he hc] at hw
      cases hw
    rw [(C60_agrees (graphemes P) d d.toNfa w (agrees hP h1' h2 hov)).1, hw]

/-- **C94** The same for NFAs. -/
theorem C94_nfa_interchangeable (P : Unicode.Table) (hP : P.Consistent) (n : Nfa) (hn : n.WF) (h1 : n.graphemesOnly (graphemes P) = true)
    (h2 : ∀ a ∈ n.alphabet, ∀ b ∈ n.alphabet, graphemes P (a ++ b) = [a, b]) :
    (∀ w : Word, (∀ e ∈ w, e ∈ n.alphabet) → n.acceptsGraphemes (graphemes P) w.flatten = n.accepts w) ∧
    ∀ t, n.acceptsGraphemes (graphemes P) t = true ↔ ∃ w, n.accepts w = true ∧ w.flatten = t := by
  have h1' := (C60_graphemes_only (graphemes P) (clusters hP) evenMark n).2.1 h1
  refine ⟨fun w hw => (C60_agrees (graphemes P) evenMark n w (agrees hP h1' h2 hw)).2, fun t => ⟨fun h => ?_, ?_⟩⟩
  · exact ⟨graphemes P t, h, (clusters hP).flatten t⟩
  · rintro ⟨w, hw, rfl⟩
    have hov : ∀ e ∈ w, e ∈ n.alphabet := by
      intro e he
      by_contra hc
      rw [C02_nfa_rejects_foreign n hn w e he hc] at hw
      cases hw
    rw [(C60_agrees (graphemes P) evenMark n w (agrees hP h1' h2 hov)).2, hw]

private theorem matches_two {a b : Str} {w : Word} : Matches (.seq [.chr (.grapheme a), .chr (.grapheme b)]) w ↔ w = [a, b] := by
  constructor
  · intro h
    cases h with
    | seqCons h1 h2 =>
      cases h1
      cases h2 with
      | seqCons h3 h4 => cases h3; cases h4; rfl
  · rintro rfl
    exact .seqCons (.grapheme a) (.seqCons (.grapheme b) .seqNil)

/-- **C94** The condition is needed: if two single clusters join, the automaton that accepts just the one after the other has
`graphemes_only`, but does not accept their concatenation (nor any other text). -/
theorem C94_joining (P : Unicode.Table) (hP : P.Consistent) (a b : Str) (ha : graphemes P a = [a]) (hb : graphemes P b = [b])
    (hj : graphemes P (a ++ b) ≠ [a, b]) (n : Nfa) (hn : n = toNfa (.seq [.chr (.grapheme a), .chr (.grapheme b)])) :
    n.graphemesOnly (graphemes P) = true ∧ n.accepts [a, b] = true ∧ ∀ t, n.acceptsGraphemes (graphemes P) t = false := by
  subst hn
  refine ⟨?_, ?_, ?_⟩
  · rw [(C60_graphemes_only (graphemes P) (clusters hP) evenMark _).2]
    intro e he
    have := ((C35_to_nfa_alphabet _).1 e).1 he
    simp [RegexTree.graphemes, RegexTree.graphemesList] at this
    rcases this with rfl | rfl
    · exact ha
    · exact hb
  · rw [C34_to_nfa_accepts, matches_two]
  · intro t
    by_contra hc
    rw [Bool.not_eq_false] at hc
    have h2 : graphemes P t = [a, b] := by
      have : (toNfa (.seq [.chr (.grapheme a), .chr (.grapheme b)])).accepts (graphemes P t) = true := hc
      rwa [C34_to_nfa_accepts, matches_two] at this
    have h3 := (clusters hP).flatten t
    rw [h2] at h3
    apply hj
    rw [← h2, ← h3]
    simp

private theorem ascii_chars {P : Unicode.Table} (hP : P.Consistent) (hA : P.Ascii) (t : Str) (ht : ∀ c ∈ t, c.toNat < 128)
    (hn : ¬ ['\r', '\n'] <:+: t) : graphemes P t = t.map (fun c => [c]) := by
  induction t with
  | nil => exact graphemes_nil
  | cons c t ih =>
    have h1 : ∀ d ∈ t.head?, keeps P [c] d = false := by
      intro d hd
      refine ascii_break hA (ht c (by simp)) (ht d (by simp [List.mem_of_mem_head? hd])) ?_
      rintro ⟨rfl, rfl⟩
      cases t with
      | nil => cases hd
      | cons x t => cases hd; exact hn ⟨[], t, rfl⟩
    rw [(first_one hP h1).2, ih (fun x hx => ht x (by simp [hx])) (fun h => hn (h.trans ⟨[c], [], by simp⟩))]
    rfl

/-- **C94** For an ASCII text without `\r\n`, `accepts_graphemes` is acceptance of the list of its characters. -/
theorem C94_ascii (P : Unicode.Table) (hP : P.Consistent) (hA : P.Ascii) (t : Str) (ht : ∀ c ∈ t, c.toNat < 128) (hn : ¬ ['\r', '\n'] <:+: t)
    (d : Dfa) (hd : d.WF) (n : Nfa) (hw : n.WF) :
    (d.acceptsGraphemes (graphemes P) t = true ↔ d.Lang (t.map (fun c => [c]))) ∧
    (n.acceptsGraphemes (graphemes P) t = true ↔ n.Lang (t.map (fun c => [c]))) := by
  rw [C60_dfa_accepts_graphemes _ d hd, C60_nfa_accepts_graphemes _ n hw, ascii_chars hP hA t ht hn]
  exact ⟨Iff.rfl, Iff.rfl⟩

/-! ## Regular expressions -/

theorem literal_seq {P : Unicode.Table} (hP : P.Consistent) (t : Str) (ht : t ≠ []) (hr : ∀ c ∈ t, ¬ IsReserved c) :
    SeqL (firstCluster P) t [] {graphemes P t} (graphemes P t) := by
  induction hn : t.length using Nat.strong_induction_on generalizing t with
  | _ n ih =>
    obtain ⟨g, y, h1, h2, h3, h4⟩ := graphemes_first hP ht
    have hcl : firstCluster P t = g.length := by unfold firstCluster; rw [h4]; rfl
    obtain ⟨c, s, e⟩ : ∃ c s, t = c :: s := by
      cases t with
      | nil => exact absurd rfl ht
      | cons c s => exact ⟨c, s, rfl⟩
    have ha : AtomL (firstCluster P) t y {[g]} [g] := by
      have := AtomL.plain (cl := firstCluster P) (c := c) (s := s) (hr c (by rw [e]; simp))
      rw [← e, hcl] at this
      have e1 : t.take g.length = g := by rw [h1]; exact List.take_left
      have e2 : t.drop g.length = y := by rw [h1]; exact List.drop_left
      rwa [e1, e2] at this
    rw [h4]
    by_cases hy : y = []
    · subst hy
      rw [graphemes_nil]
      exact .one (.atom ha)
    · have hlt : y.length < n := by
        rw [← hn, h1, List.length_append]
        have := List.length_pos_of_ne_nil h2.1
        omega
      have h5 := ih _ hlt y hy (fun c hc => hr c (by rw [h1]; simp [hc])) rfl
      have h6 := SeqL.cons (.atom ha) h5
      have e2 : ({[g]} : Language Str) * {graphemes P y} = {g :: graphemes P y} := by
        ext w
        rw [Language.mem_mul]
        constructor
        · rintro ⟨a, rfl, b, rfl, rfl⟩; rfl
        · rintro rfl; exact ⟨_, rfl, _, rfl, rfl⟩
      rwa [e2, List.singleton_append] at h6

/-- **C94** Plain text is a regular expression for itself, in whatever script: a text without reserved characters, not empty and without white space
around it, parses to an expression whose automaton accepts (with `accepts_graphemes`) that text and no other. -/
theorem C94_literal (P : Unicode.Table) (hP : P.Consistent) (t : Str) (ht : t ≠ []) (hr : ∀ c ∈ t, ¬ IsReserved c) (hw : Trimmed t t) :
    ∃ r, regex (firstCluster P) t = some r ∧ (∀ g, g ∈ (toNfa r).alphabet ↔ g ∈ graphemes P t) ∧
      ∀ u, (toNfa r).acceptsGraphemes (graphemes P) u = true ↔ u = t := by
  have hl := ExprL.one (literal_seq hP t ht hr)
  obtain ⟨r, h1⟩ := (C36_accepts_iff _ (segmentation hP) t t hw).2 ⟨_, _, hl⟩
  obtain ⟨h2, _, h3, _⟩ := C36_to_nfa _ (segmentation hP) t t hw r h1 _ _ hl
  refine ⟨r, h1, h3, fun u => ?_⟩
  rw [show (toNfa r).acceptsGraphemes (graphemes P) u = (toNfa r).accepts (graphemes P u) from rfl, h2]
  constructor
  · intro h
    have h : graphemes P u = graphemes P t := h
    rw [← (clusters hP).flatten u, h, (clusters hP).flatten]
  · rintro rfl; rfl

/-- **C94** A reserved character after a character with the property `Prepend` is read as a part of a literal: `c*` is the literal of the two
characters, and `(c)` is not an expression. -/
theorem C94_prepend (P : Unicode.Table) (hP : P.Consistent) (c : Char) (hc : P.gcb c = .prepend) (hr : ¬ IsReserved c) (hw : ¬ WhiteSpace c) :
    (∀ d, ¬ Hard (P.gcb d) → ¬ WhiteSpace d → regex (firstCluster P) [c, d] = some (.chr (.grapheme [c, d]))) ∧
    (¬ Hard (P.gcb ')') → regex (firstCluster P) ['(', c, ')'] = none) := by
  have hk : ∀ d, ¬ Hard (P.gcb d) → firstCluster P [c, d] = 2 := by
    intro d hd
    have h1 : keeps P [c] d = true := by
      unfold keeps
      dsimp only
      rw [pairRule_of_ties (by rw [hc]; simp [Hard]) hd (by simp [hc])]
      rfl
    unfold firstCluster
    rw [graphemes_cons, segFrom, if_pos h1]
    simp [segFrom]
  constructor
  · intro d hd hwd
    have ht : Trimmed [c, d] [c, d] := ⟨[], [], by simp, by simp, by simp, by simpa using hw, by simpa using hwd⟩
    have h1 : regexChar (firstCluster P) [c, d] = some (.grapheme [c, d], []) := by
      rw [regexChar_plain (segmentation hP) hr, hk d hd]; rfl
    exact (regex_some ht).2 (expression_single (segmentation hP) (atom_of_char (by rintro rfl; exact hr (by simp [IsReserved])) h1))
  · intro hd
    have h2 := hk _ hd
    have ht : Trimmed ['(', c, ')'] ['(', c, ')'] := ⟨[], [], by simp, by simp, by simp, by simp [WhiteSpace], by simp [WhiteSpace]⟩
    by_contra hsome
    obtain ⟨t, hs⟩ := Option.ne_none_iff_exists'.1 hsome
    obtain ⟨L, gs, hl⟩ := (C36_accepts_iff _ (segmentation hP) _ _ ht).1 ⟨t, hs⟩
    generalize hcl : firstCluster P = cl at h2 hl
    have atom : ∀ {r L gs}, AtomL cl [c, ')'] r L gs → r = [] := by
      intro r L gs h
      cases h with
      | par _ => exact absurd (by simp [IsReserved]) hr
      | epsilon => exact absurd (by simp [IsReserved]) hr
      | empty => exact absurd (by simp [IsReserved]) hr
      | escaped _ => exact absurd (by simp [IsReserved]) hr
      | plain _ => rw [h2]; rfl
    have item : ∀ {r L gs}, ItemL cl [c, ')'] r L gs → r = [] := by
      intro r L gs h
      cases h with
      | atom h => exact atom h
      | star h => cases atom h
      | plus h => cases atom h
    have noitem : ∀ {r L gs}, ¬ ItemL cl [] r L gs := by
      intro r L gs h
      cases h with
      | atom h => cases h
      | star h => cases h
      | plus h => cases h
    have noseq : ∀ {r L gs}, ¬ SeqL cl [] r L gs := by
      intro r L gs h
      cases h with
      | one h => exact noitem h
      | cons h _ => exact noitem h
    have seq : ∀ {r L gs}, SeqL cl [c, ')'] r L gs → r = [] := by
      intro r L gs h
      cases h with
      | one h => exact item h
      | cons h h' => rw [item h] at h'; exact absurd h' noseq
    have expr : ∀ {r L gs}, ExprL cl [c, ')'] r L gs → r = [] := by
      intro r L gs h
      cases h with
      | one h => exact seq h
      | alt h _ => cases seq h
    have outer : ∀ {r L gs}, ¬ AtomL cl ['(', c, ')'] r L gs := by
      intro r L gs h
      cases h with
      | par h => cases expr h
      | plain h => exact h (by simp [IsReserved])
    have outerItem : ∀ {r L gs}, ¬ ItemL cl ['(', c, ')'] r L gs := by
      intro r L gs h
      cases h with
      | atom h => exact outer h
      | star h => exact outer h
      | plus h => exact outer h
    have outerSeq : ∀ {r L gs}, ¬ SeqL cl ['(', c, ')'] r L gs := by
      intro r L gs h
      cases h with
      | one h => exact outerItem h
      | cons h _ => exact outerItem h
    cases hl with
    | one h => exact outerSeq h
    | alt h _ => exact outerSeq h

/-! ## Examples -/

/-- A part of the tables of Unicode. -/
def sampleTable : Unicode.Table where
  gcb c :=
    if c.toNat = 13 then .cr else if c.toNat = 10 then .lf else if c.toNat < 32 ∨ c.toNat = 127 then .control
    else if c.toNat = 0x301 ∨ c.toNat = 0x94D ∨ c.toNat = 0x1F3FD then .extend else if c.toNat = 0x200D then .zwj
    else if c.toNat = 0x600 then .prepend else if c.toNat = 0x903 then .spacingMark
    else if 0x1F1E6 ≤ c.toNat ∧ c.toNat ≤ 0x1F1FF then .ri
    else if c.toNat = 0x1100 then .l else if c.toNat = 0x1161 then .v else if c.toNat = 0x11A8 then .t else .other
  incb c := if c.toNat = 0x915 ∨ c.toNat = 0x937 then .consonant else if c.toNat = 0x94D then .linker else
    if c.toNat = 0x301 ∨ c.toNat = 0x200D then .extend else .none
  pict c := decide (c.toNat = 0x1F468 ∨ c.toNat = 0x1F467)

theorem sampleTable_consistent : sampleTable.Consistent where
  pict c h := by
    simp only [sampleTable, decide_eq_true_eq] at h ⊢
    rcases h with h | h <;> simp [h]
  consonant c h := by
    have h : c.toNat = 0x915 ∨ c.toNat = 0x937 := by
      simp only [sampleTable] at h
      split at h
      · assumption
      · split at h
        · cases h
        · split at h <;> cases h
    rcases h with h | h <;> simp [sampleTable, h]
  between c h := by
    have h : c.toNat = 0x94D ∨ c.toNat = 0x301 ∨ c.toNat = 0x200D := by
      simp only [sampleTable] at h
      split at h
      · simp at h
      · split at h
        · exact Or.inl (by assumption)
        · split at h
          · exact Or.inr (by assumption)
          · simp at h
    rcases h with h | h | h <;> simp [sampleTable, h]

theorem sampleTable_ascii : sampleTable.Ascii where
  cr := by decide
  lf := by decide
  control c h h1 h2 := by
    have h1' : c.toNat ≠ 13 := fun e => h1 (Char.toNat_inj.1 e)
    have h2' : c.toNat ≠ 10 := fun e => h2 (Char.toNat_inj.1 e)
    simp [sampleTable, h1', h2', h]
  other c h1 h2 := by
    simp only [sampleTable]
    rw [if_neg (by omega), if_neg (by omega), if_neg (by omega), if_neg (by omega), if_neg (by omega), if_neg (by omega), if_neg (by omega),
      if_neg (by omega), if_neg (by omega), if_neg (by omega), if_neg (by omega)]
  pict c h := by
    simp only [sampleTable, decide_eq_false_iff_not]
    omega
  incb c h := by
    simp only [sampleTable]
    rw [if_neg (by omega), if_neg (by omega), if_neg (by omega)]

/-- A letter with an accent, a family of two, two flags, Hangul jamo, a conjunct, a line break, and a control character with an accent after it. -/
example : graphemes sampleTable c!"ae\u0301👨\u200D👧" = [c!"a", c!"e\u0301", c!"👨\u200D👧"] ∧
    graphemes sampleTable c!"🇸🇪🇩🇰🇸" = [c!"🇸🇪", c!"🇩🇰", c!"🇸"] ∧ graphemes sampleTable c!"\u1100\u1161\u11A8\u1100" = [c!"\u1100\u1161\u11A8", c!"\u1100"] ∧
    graphemes sampleTable c!"\u0915\u094D\u0937\u0915" = [c!"\u0915\u094D\u0937", c!"\u0915"] ∧
    graphemes sampleTable c!"a\r\nb\n\u0301" = [c!"a", c!"\r\n", c!"b", c!"\n", c!"\u0301"] ∧ graphemes sampleTable c!"\u0600*a" = [c!"\u0600*", c!"a"] := by
  decide +kernel

example : sampleTable.Consistent ∧ sampleTable.Ascii ∧ (∀ d, d = 'ε' ∨ d = '∅' → sampleTable.gcb d = .other ∧ sampleTable.pict d = false ∧ sampleTable.incb d = .none) :=
  ⟨sampleTable_consistent, sampleTable_ascii, by rintro d (rfl | rfl) <;> decide⟩

/-- Elements of several characters that do not join; regional indicators do. -/
example : (∀ a ∈ [c!"e\u0301", c!"🇸🇪", c!"x"], ∀ b ∈ [c!"e\u0301", c!"🇸🇪", c!"x"], graphemes sampleTable (a ++ b) = [a, b]) ∧
    graphemes sampleTable c!"🇸" = [c!"🇸"] ∧ graphemes sampleTable c!"🇪" = [c!"🇪"] ∧ graphemes sampleTable (c!"🇸" ++ c!"🇪") ≠ [c!"🇸", c!"🇪"] := by
  decide +kernel

/-- The counterexamples of C37 and C60 with a combining accent are such by the rules of Unicode. -/
example : (∃ t, regex (firstCluster sampleTable) c!"\\*\u0301" = some t ∧ regex (firstCluster sampleTable) (RegexTree.toText t) = none) ∧
    evenMark.graphemesOnly (graphemes sampleTable) = true ∧ evenMark.accepts [s 'e', s '\u0301'] = true ∧
    evenMark.acceptsGraphemes (graphemes sampleTable) ([s 'e', s '\u0301'] : Word).flatten = false := by
  refine ⟨⟨.chr (.grapheme c!"*\u0301"), rfl, by decide +kernel⟩, by decide +kernel, by decide +kernel, by decide +kernel⟩

/-- Plain text in several scripts. -/
example : c!"e\u0301👨\u200D👧 🇸🇪" ≠ [] ∧ (∀ c ∈ c!"e\u0301👨\u200D👧 🇸🇪", ¬ IsReserved c) ∧ Trimmed c!"e\u0301👨\u200D👧 🇸🇪" c!"e\u0301👨\u200D👧 🇸🇪" ∧
    (regex (firstCluster sampleTable) c!"e\u0301👨\u200D👧 🇸🇪").map (fun t => (toNfa t).alphabet) = some [c!"e\u0301", c!"👨\u200D👧", c!" ", c!"🇸🇪"] :=
  ⟨by decide, by simp [IsReserved], ⟨[], [], by decide, by simp, by simp, by simp [WhiteSpace], by simp [WhiteSpace]⟩, by decide +kernel⟩

example : sampleTable.gcb '\u0600' = .prepend ∧ ¬ IsReserved '\u0600' ∧ ¬ WhiteSpace '\u0600' ∧ ¬ Hard (sampleTable.gcb '*') ∧ ¬ WhiteSpace '*' ∧
    ¬ Hard (sampleTable.gcb ')') := by
  refine ⟨by decide, by simp [IsReserved], by simp [WhiteSpace], ?_, by simp [WhiteSpace], ?_⟩ <;> unfold Hard <;> decide

/-! ## Instances of the theorems of this file -/

example := C94_rules sampleTable sampleTable_consistent c!"ab" [c!"a", c!"b"]
example := C94_assumptions sampleTable sampleTable_consistent
example := C94_ascii_assumptions sampleTable sampleTable_consistent sampleTable_ascii
example := C94_pairs sampleTable sampleTable_consistent
example := C94_dfa_interchangeable sampleTable sampleTable_consistent Samples.oddA Samples.oddA_wf (by decide +kernel) (by decide +kernel)
example := C94_nfa_interchangeable sampleTable sampleTable_consistent Samples.epsNfa Samples.epsNfa_wf (by decide +kernel) (by
  decide +kernel)
example := C94_joining sampleTable sampleTable_consistent c!"🇸" c!"🇪" (by decide +kernel) (by decide +kernel) (by decide +kernel) _ rfl
example := C94_ascii sampleTable sampleTable_consistent sampleTable_ascii c!"ab\r" (by decide) (by decide) Samples.oddA Samples.oddA_wf
  Samples.epsNfa Samples.epsNfa_wf
example := C94_literal sampleTable sampleTable_consistent c!"e\u0301👨\u200D👧 🇸🇪" (by decide) (by simp [IsReserved]) ⟨[], [], by decide, by
  simp, by simp, by simp [WhiteSpace], by simp [WhiteSpace]⟩
example := C94_prepend sampleTable sampleTable_consistent '\u0600' (by decide) (by simp [IsReserved]) (by simp [WhiteSpace])

end Dandy
