import Verif.Proofs.RegexStrip
import Verif.Props.Regex
/-! # C36, C37: parsing and printing regular expressions -/

namespace Dandy
open Samples RegexTree RegexParser P

/-- Every character is a cluster of its own. -/
def cl1 (s : Str) : Nat := min 1 s.length

theorem cl1_seg : Segmentation cl1 := by
  refine ⟨fun s hs => ?_, fun s => by unfold cl1; omega⟩
  have := List.length_pos_iff.2 hs
  unfold cl1; omega

/-- Line feed after carriage return and combining marks (here only U+0301) belong to the cluster before them. -/
def cl2 : Str → Nat
  | [] => 0
  | '\r' :: '\n' :: _ => 2
  | _ :: s => 1 + (s.takeWhile (· == '\u0301')).length

theorem cl2_seg : Segmentation cl2 := by
  refine ⟨fun s hs => ?_, fun s => ?_⟩
  · unfold cl2; split
    · exact absurd rfl hs
    · omega
    · omega
  · unfold cl2; split
    · exact Nat.zero_le _
    · simp
    · rename_i s _
      have := (List.takeWhile_prefix (l := s) (· == '\u0301')).length_le
      simp only [List.length_cons]
      omega

/-- **C36** `parser::regex` accepts a text iff, without the white space around it, it is a sentence of the documented grammar. -/
theorem C36_accepts_iff (cl : Str → Nat) (h : Segmentation cl) (text core : Str) (ht : Trimmed text core) :
    (∃ t, regex cl text = some t) ↔ ∃ L gs, ExprL cl core [] L gs := by
  constructor
  · rintro ⟨t, h1⟩
    exact ⟨_, _, expression_sound h _ _ _ _ ((regex_some ht).1 h1)⟩
  · rintro ⟨L, gs, hl⟩
    obtain ⟨t, h1, _⟩ := expression_complete h hl (Nat.lt_succ_self _)
    exact ⟨t, (regex_some ht).2 h1⟩

/-- **C36** The tree it returns has the language and the elements which the grammar gives to the sentence (the grammar is
unambiguous in this respect). -/
theorem C36_language (cl : Str → Nat) (h : Segmentation cl) (text core : Str) (ht : Trimmed text core) (t : RegexTree)
    (hp : regex cl text = some t) (L : Language Str) (gs : List Str) :
    ExprL cl core [] L gs ↔ L = {w : Word | Matches t w} ∧ gs = t.graphemes := by
  have e : {w : Word | Matches t w} = t.denote := by ext w; exact matches_denote t w
  rw [e]
  constructor
  · intro hl
    obtain ⟨t', h1, rfl, rfl⟩ := expression_complete h hl (Nat.lt_succ_self _)
    rw [(regex_some ht).1 hp] at h1
    cases h1; exact ⟨rfl, rfl⟩
  · rintro ⟨rfl, rfl⟩
    exact expression_sound h _ _ _ _ ((regex_some ht).1 hp)

/-- **C36** Every text has a trimmed core, so the two statements above speak about every text. -/
theorem C36_every_text (text : Str) : ∃! core, Trimmed text core :=
  ⟨trim text, trimmed_trim text, fun _ h => (trim_eq h).symm⟩

/-- **C36** The bound on the nesting of parentheses in the model never matters: any larger bound gives the same result. -/
theorem C36_nesting_bound (cl : Str → Nat) (h : Segmentation cl) (text : Str) (k : Nat) :
    expression cl ((trim text).length + 1 + k) (trim text) = fullRegex cl text :=
  expression_depth h _ _ (Nat.le_refl _) _ _ (by omega) (by omega)

/-- **C36** The NFA of a parsed expression accepts exactly the language given by the grammar; its alphabet consists of the
elements given by the grammar, in the order in which they are first written. -/
theorem C36_to_nfa (cl : Str → Nat) (h : Segmentation cl) (text core : Str) (ht : Trimmed text core) (t : RegexTree)
    (hp : regex cl text = some t) (L : Language Str) (gs : List Str) (hl : ExprL cl core [] L gs) :
    (∀ w, (toNfa t).accepts w = true ↔ w ∈ L) ∧ (toNfa t).alphabet.Nodup ∧ (∀ g, g ∈ (toNfa t).alphabet ↔ g ∈ gs) ∧
    (toNfa t).alphabet.Pairwise (fun a b => gs.idxOf a < gs.idxOf b) := by
  obtain ⟨rfl, rfl⟩ := (C36_language cl h text core ht t hp L gs).1 hl
  obtain ⟨h1, h2, h3⟩ := C35_to_nfa_alphabet t
  refine ⟨fun w => ?_, h2, h1, h3⟩
  rw [C34_to_nfa_accepts]
  rfl

example : Segmentation cl2 ∧ Trimmed c!" (ab)+|\\*ε∅\t" c!"(ab)+|\\*ε∅" ∧ (regex cl2 c!" (ab)+|\\*ε∅\t").isSome = true ∧
    (regex cl2 c!"e\u0301*").isSome = true ∧ (regex cl2 c!"a**").isSome = false ∧ (regex cl2 c!"a||b").isSome = false ∧
    (regex cl2 c!"()").isSome = false ∧ (regex cl2 c!"(a").isSome = false ∧ (regex cl2 c!"").isSome = false :=
  ⟨cl2_seg, ⟨[' '], ['\t'], by decide, by decide, by decide, by decide, by decide⟩, by decide, by decide, by decide, by decide,
    by decide, by decide, by decide⟩

/-- **C36** The example in the documentation (dandy/src/regex/mod.rs:16) is wrong: `0*1(0+ε)` does not match `1`, since `+`
is not alternation. -/
theorem C36_doc_example_false : ∃ t, regex cl1 c!"0*1(0+ε)" = some t ∧ ¬ Matches t [s '1'] ∧ Matches t [s '1', s '0'] := by
  refine ⟨_, rfl, ?_, ?_⟩
  · rw [← C34_to_nfa_accepts]; decide +kernel
  · rw [← C34_to_nfa_accepts]; decide +kernel

/-- **C37** (partial) What is printed for a parsed expression parses again, to an expression with the same language and the same
elements, provided
that every grapheme begins with a non-reserved character or is a single reserved ASCII character, that the segmentation of the
printed text gives back the graphemes, and that the printed text does not begin or end with white space. Without these
conditions the claim is false, see below. -/
theorem C37_roundtrip_partial (cl : Str → Nat) (h : Segmentation cl) (text : Str) (t : RegexTree) (hp : regex cl text = some t)
    (hshape : ∀ g ∈ t.graphemes, (∃ c g', g = c :: g' ∧ ¬ IsReserved c) ∨ (∃ c, g = [c] ∧ IsReserved c ∧ c.toNat < 128))
    (hcluster : ∀ g ∈ t.graphemes, ∀ r, (r = [] ∨ (∃ c r', r = c :: r' ∧ IsReserved c) ∨ ∃ g' ∈ t.graphemes, g' <+: r) →
      cl (g ++ r) = g.length)
    (hws : Trimmed (toText t) (toText t)) :
    ∃ t', regex cl (toText t) = some t' ∧ t'.graphemes = t.graphemes ∧ ∀ w, Matches t' w ↔ Matches t w := by
  have hpr := expression_proper h _ _ _ _ ((regex_some (trimmed_trim text)).1 hp)
  have hG : Readable cl t.graphemes := ⟨hshape, hcluster⟩
  have h1 := (print_tree hG t hpr (fun _ hg => hg) [] (Or.inl rfl)).1
  rw [List.append_nil] at h1
  obtain ⟨t', h2, h3, h4⟩ := expression_complete h (ExprL.one h1) (Nat.lt_succ_self _)
  refine ⟨t', (regex_some hws).2 h2, h4, fun w => ?_⟩
  rw [matches_denote, matches_denote, h3]

/-- **C37** What is lost: under the same conditions on the graphemes, but whatever white space there is (as long as every grapheme
consists of white space or neither begins nor ends with it), there are lists `a` and `b` of graphemes of white space such that every word
of the expression begins with `a` and ends with `b`, and what is between is a word of the expression read back. If nothing else is
printed, the text is rejected. -/
theorem C37_stripped (cl : Str → Nat) (h : Segmentation cl) (text : Str) (t : RegexTree) (hp : regex cl text = some t)
    (hshape : ∀ g ∈ t.graphemes, (∃ c g', g = c :: g' ∧ ¬ IsReserved c) ∨ (∃ c, g = [c] ∧ IsReserved c ∧ c.toNat < 128))
    (hcluster : ∀ g ∈ t.graphemes, ∀ r, (r = [] ∨ (∃ c r', r = c :: r' ∧ IsReserved c) ∨ ∃ g' ∈ t.graphemes, g' <+: r) →
      cl (g ++ r) = g.length)
    (hends : ∀ g ∈ t.graphemes, (∀ c ∈ g, WhiteSpace c) ∨ (∀ c ∈ g.head?, ¬ WhiteSpace c) ∧ ∀ c ∈ g.getLast?, ¬ WhiteSpace c) :
    ∃ a b : List Str, ∃ core : Str, (∀ g ∈ a ++ b, ∀ c ∈ g, WhiteSpace c) ∧ toText t = a.flatten ++ core ++ b.flatten ∧
      Trimmed (toText t) core ∧
      (core = [] ∧ regex cl (toText t) = none ∧ (∀ w, Matches t w ↔ w = a ++ b) ∨
        core ≠ [] ∧ ∃ t', regex cl (toText t) = some t' ∧ t.graphemes = a ++ t'.graphemes ++ b ∧
          ∀ w, Matches t w ↔ ∃ v, Matches t' v ∧ w = a ++ v ++ b) :=
  strip_spec h (expression_proper h _ _ _ _ ((regex_some (trimmed_trim text)).1 hp)) ⟨hshape, hcluster⟩ hends

/-- **C37** Exactly when the language survives: under these conditions, the printed text is parsed to an expression with the same language
iff it does not begin or end with white space, or the expression matches nothing at all. -/
theorem C37_roundtrip_iff (cl : Str → Nat) (h : Segmentation cl) (text : Str) (t : RegexTree) (hp : regex cl text = some t)
    (hshape : ∀ g ∈ t.graphemes, (∃ c g', g = c :: g' ∧ ¬ IsReserved c) ∨ (∃ c, g = [c] ∧ IsReserved c ∧ c.toNat < 128))
    (hcluster : ∀ g ∈ t.graphemes, ∀ r, (r = [] ∨ (∃ c r', r = c :: r' ∧ IsReserved c) ∨ ∃ g' ∈ t.graphemes, g' <+: r) →
      cl (g ++ r) = g.length)
    (hends : ∀ g ∈ t.graphemes, (∀ c ∈ g, WhiteSpace c) ∨ (∀ c ∈ g.head?, ¬ WhiteSpace c) ∧ ∀ c ∈ g.getLast?, ¬ WhiteSpace c) :
    (∃ t', regex cl (toText t) = some t' ∧ ∀ w, Matches t' w ↔ Matches t w) ↔
      Trimmed (toText t) (toText t) ∨ ∀ w, ¬ Matches t w := by
  obtain ⟨a, b, core, h1, h2, h3, h4⟩ := C37_stripped cl h text t hp hshape hcluster hends
  constructor
  · rintro ⟨t', h5, h6⟩
    rcases h4 with ⟨_, h7, _⟩ | ⟨_, t'', h7, _, h8⟩
    · rw [h5] at h7; cases h7
    · rw [h5] at h7
      cases h7
      by_cases hn : ∃ w, Matches t w
      · left
        -- a shortest word
        have key : ∀ (n : Nat) (w : Word), w.length = n → Matches t w → a = [] ∧ b = [] := by
          intro n
          induction n using Nat.strongRecOn with
          | _ n ih =>
            intro w hw hm
            obtain ⟨v, hv, rfl⟩ := (h8 w).1 hm
            by_contra hab
            have hlt : v.length < n := by
              rw [← hw]
              simp only [List.length_append]
              rcases a with _ | ⟨x, a⟩
              · rcases b with _ | ⟨y, b⟩
                · exact absurd ⟨rfl, rfl⟩ hab
                · simp
              · simp only [List.length_cons]; omega
            exact hab (ih v.length hlt v rfl ((h6 v).1 hv))
        obtain ⟨w, hw⟩ := hn
        obtain ⟨rfl, rfl⟩ := key _ w rfl hw
        rw [List.flatten_nil, List.nil_append, List.append_nil] at h2
        rw [← h2] at h3
        exact h3
      · right
        exact fun w hw => hn ⟨w, hw⟩
  · rintro (h5 | h5)
    · obtain ⟨t', h6, _, h7⟩ := C37_roundtrip_partial cl h text t hp hshape hcluster h5
      exact ⟨t', h6, h7⟩
    · rcases h4 with ⟨_, _, h6⟩ | ⟨_, t', h6, _, h7⟩
      · exact absurd ((h6 _).2 rfl) (h5 _)
      · refine ⟨t', h6, fun w => ⟨fun hw => absurd ((h7 _).2 ⟨w, hw, rfl⟩) (h5 _), fun hw => absurd hw (h5 w)⟩⟩

/-- Graphemes of one ASCII character satisfy the conditions. -/
theorem ascii_conditions {cl : Str → Nat}
    (hascii : ∀ (c : Char) (r : Str), c.toNat < 128 → c ≠ '\r' → (∀ d ∈ r.head?, d.toNat < 128 ∨ d = 'ε' ∨ d = '∅') → cl (c :: r) = 1)
    {G : List Str} (hg : ∀ g ∈ G, ∃ c : Char, g = [c] ∧ c.toNat < 128 ∧ c ≠ '\r') :
    (∀ g ∈ G, (∃ c g', g = c :: g' ∧ ¬ IsReserved c) ∨ (∃ c, g = [c] ∧ IsReserved c ∧ c.toNat < 128)) ∧
    (∀ g ∈ G, ∀ r, (r = [] ∨ (∃ c r', r = c :: r' ∧ IsReserved c) ∨ ∃ g' ∈ G, g' <+: r) → cl (g ++ r) = g.length) ∧
    ∀ g ∈ G, (∀ c ∈ g, WhiteSpace c) ∨ (∀ c ∈ g.head?, ¬ WhiteSpace c) ∧ ∀ c ∈ g.getLast?, ¬ WhiteSpace c := by
  refine ⟨?_, ?_, ?_⟩
  · intro g hg'
    obtain ⟨c, rfl, h1, _⟩ := hg g hg'
    by_cases hr : IsReserved c
    · exact Or.inr ⟨c, rfl, hr, h1⟩
    · exact Or.inl ⟨c, [], rfl, hr⟩
  · intro g hg' r hr
    obtain ⟨c, rfl, h1, h2⟩ := hg g hg'
    refine hascii c r h1 h2 ?_
    intro d hd
    rcases hr with rfl | ⟨c', r', rfl, hc'⟩ | ⟨g', hg'', r', rfl⟩
    · cases hd
    · cases hd
      unfold IsReserved at hc'
      rcases hc' with rfl | rfl | rfl | rfl | rfl | rfl | rfl | rfl
      · exact Or.inr (Or.inr rfl)
      · exact Or.inr (Or.inl rfl)
      all_goals exact Or.inl (by decide)
    · obtain ⟨c', rfl, h3, _⟩ := hg g' hg''
      cases hd
      exact Or.inl h3
  · intro g hg'
    obtain ⟨c, rfl, _, _⟩ := hg g hg'
    by_cases hc : WhiteSpace c
    · exact Or.inl (by simpa using hc)
    · exact Or.inr ⟨by simpa using hc, by simpa using hc⟩

/-- **C37** (partial) In particular for ASCII graphemes without carriage return, with a segmentation that breaks between
such characters and before `ε` and `∅` (as the Unicode rules do). -/
theorem C37_roundtrip_ascii_partial (cl : Str → Nat) (h : Segmentation cl)
    (hascii : ∀ (c : Char) (r : Str), c.toNat < 128 → c ≠ '\r' → (∀ d ∈ r.head?, d.toNat < 128 ∨ d = 'ε' ∨ d = '∅') → cl (c :: r) = 1)
    (text : Str) (t : RegexTree) (hp : regex cl text = some t)
    (hg : ∀ g ∈ t.graphemes, ∃ c : Char, g = [c] ∧ c.toNat < 128 ∧ c ≠ '\r') (hws : Trimmed (toText t) (toText t)) :
    ∃ t', regex cl (toText t) = some t' ∧ t'.graphemes = t.graphemes ∧ ∀ w, Matches t' w ↔ Matches t w := by
  obtain ⟨h1, h2, _⟩ := ascii_conditions hascii hg
  exact C37_roundtrip_partial cl h text t hp h1 h2 hws

/-- **C37** Exactly when the language survives, for ASCII graphemes without carriage return: the printed text does not begin or end with
white space, or nothing is matched. -/
theorem C37_ascii_iff (cl : Str → Nat) (h : Segmentation cl)
    (hascii : ∀ (c : Char) (r : Str), c.toNat < 128 → c ≠ '\r' → (∀ d ∈ r.head?, d.toNat < 128 ∨ d = 'ε' ∨ d = '∅') → cl (c :: r) = 1)
    (text : Str) (t : RegexTree) (hp : regex cl text = some t)
    (hg : ∀ g ∈ t.graphemes, ∃ c : Char, g = [c] ∧ c.toNat < 128 ∧ c ≠ '\r') :
    (∃ t', regex cl (toText t) = some t' ∧ ∀ w, Matches t' w ↔ Matches t w) ↔ Trimmed (toText t) (toText t) ∨ ∀ w, ¬ Matches t w := by
  obtain ⟨h1, h2, h3⟩ := ascii_conditions hascii hg
  exact C37_roundtrip_iff cl h text t hp h1 h2 h3

example : ∃ t, regex cl2 c!"(ab)+|\\* ε|c" = some t ∧ toText t = c!"(ab(ab)*|\\* ε|c)" ∧ Trimmed (toText t) (toText t) ∧
    ∀ g ∈ t.graphemes, ∃ c : Char, g = [c] ∧ c.toNat < 128 ∧ c ≠ '\r' := by
  refine ⟨_, rfl, by decide, ⟨[], [], by simp, by simp, by simp, by decide, by decide⟩, ?_⟩
  intro g hg
  have : g ∈ [['a'], ['b'], ['a'], ['b'], ['*'], [' '], ['c']] := hg
  simp only [List.mem_cons, List.not_mem_nil, or_false] at this
  rcases this with rfl | rfl | rfl | rfl | rfl | rfl | rfl <;> exact ⟨_, rfl, by decide, by decide⟩

/-- White space at both ends, white space only, and white space in an expression that matches nothing. -/
example : (∃ t, regex cl1 c!"( a|b)" = some t ∧ toText t = c!"( a|b)") ∧
    (∃ t t', regex cl1 c!"( a)b( )" = some t ∧ toText t = c!" ab " ∧ regex cl1 (toText t) = some t' ∧ t.graphemes = [[' '], ['a'], ['b'], [' ']] ∧
      t'.graphemes = [['a'], ['b']]) ∧
    (∃ t, regex cl1 c!"( )" = some t ∧ regex cl1 (toText t) = none) ∧
    (regex cl1 c!"( ∅)" = some (.seq [.chr (.grapheme [' ']), .chr .empty]) ∧
      toText (.seq [.chr (.grapheme [' ']), .chr .empty]) = c!" ∅" ∧ regex cl1 c!" ∅" = some (.chr .empty) ∧
      ∀ w, ¬ Matches (.seq [.chr (.grapheme [' ']), .chr .empty]) w) := by
  refine ⟨⟨_, rfl, by decide⟩, ⟨_, _, rfl, by decide, rfl, by decide, by decide⟩, ⟨_, rfl, by decide⟩, by rfl, by decide, by rfl, ?_⟩
  intro w hw
  cases hw with
  | seqCons _ h2 => cases h2 with
    | seqCons h3 _ => cases h3

/-- The hypothesis about the segmentation holds for `cl2`. -/
example (c : Char) (r : Str) (h1 : c.toNat < 128) (h2 : c ≠ '\r') (h3 : ∀ d ∈ r.head?, d.toNat < 128 ∨ d = 'ε' ∨ d = '∅') : cl2 (c :: r) = 1 := by
  unfold cl2
  split
  · rename_i h; cases h
  · rename_i h; cases h; exact absurd rfl h2
  · rename_i h
    cases h
    cases r with
    | nil => rfl
    | cons d r =>
      have hd : (d == '\u0301') = false := by
        rw [beq_eq_false_iff_ne]
        rintro rfl
        rcases h3 _ rfl with h | h | h <;> revert h <;> decide
      simp [hd]

theorem expression_single {cl : Str → Nat} (h : Segmentation cl) {d : Nat} {s : Str} {t : RegexTree}
    (ha : atomP cl (expression cl d) s = some (t, [])) : expression cl (d + 1) s = some (t, []) := by
  have hce := expression_consumes h d
  have hi := item_complete ha (by intro c hc; cases hc)
  have hn : itemP cl (expression cl d) [] = none := itemP_follow (by intro c hc; cases hc) h _
  have hq : sequence cl (expression cl d) s = some (t, []) :=
    map_some.2 ⟨[t], (many1_iff (itemP_consumes h hce)).2 ⟨by simp, .cons hi (.nil _), hn⟩, rfl⟩
  exact map_some.2 ⟨[t], (separatedList1_iff (oneOf_consumes _) (sequence_consumes h hce).shrinks).2
    ⟨t, [], [], rfl, hq, .nil _, preceded_none.2 (Or.inl (oneOf_none.2 (by intro c hc; cases hc)))⟩, rfl⟩

/-- **C37** is false in general: the escaped character `ε` is printed without its backslash and read as the empty word. -/
theorem C37_false_epsilon (cl : Str → Nat) (hs : Segmentation cl) (h : cl ['ε'] = 1) :
    regex cl c!"\\ε" = some (.chr (.grapheme ['ε'])) ∧ toText (.chr (.grapheme ['ε'])) = c!"ε" ∧
    regex cl c!"ε" = some (.chr .epsilon) ∧ Matches (.chr (.grapheme ['ε'])) [['ε']] ∧ ¬ Matches (.chr .epsilon) [['ε']] := by
  have h1 : regexChar cl ['\\', 'ε'] = some (.grapheme ['ε'], []) := by
    rw [regexChar_esc (by simp), h]; rfl
  have h2 : regexChar cl ['ε'] = some (.epsilon, []) := regexChar_eps []
  have h3 : Trimmed c!"\\ε" c!"\\ε" := ⟨[], [], rfl, by simp, by simp, by decide, by decide⟩
  have h4 : Trimmed c!"ε" c!"ε" := ⟨[], [], rfl, by simp, by simp, by decide, by decide⟩
  refine ⟨(regex_some h3).2 (expression_single hs (atom_of_char (by decide) h1)), by decide,
    (regex_some h4).2 (expression_single hs (atom_of_char (by decide) h2)), .grapheme _, fun hm => by cases hm⟩

/-- **C37** is false in general: white space inside a group can end up at the border of the printed text, where it is ignored. -/
theorem C37_false_space : ∃ t t', regex cl1 c!"( a)b" = some t ∧ regex cl1 (toText t) = some t' ∧
    Matches t [s ' ', s 'a', s 'b'] ∧ ¬ Matches t' [s ' ', s 'a', s 'b'] := by
  refine ⟨_, _, rfl, rfl, ?_, ?_⟩
  · rw [← C34_to_nfa_accepts]; decide +kernel
  · rw [← C34_to_nfa_accepts]; decide +kernel

/-- **C37** is false in general: what is printed can even be rejected by the parser, for a reserved character with a combining mark. -/
theorem C37_false_mark : ∃ t, regex cl2 c!"\\*\u0301" = some t ∧ regex cl2 (toText t) = none := by
  exact ⟨_, rfl, by decide⟩

/-! ## Instances of the theorems of this file -/

example := C36_accepts_iff cl1 cl1_seg c!" a|b\n" c!"a|b" ⟨[' '], ['\n'], rfl, by decide, by decide, by decide, by decide⟩
example := C36_language cl1 cl1_seg c!" a|b\n" c!"a|b" ⟨[' '], ['\n'], rfl, by decide, by decide, by decide, by decide⟩ _ rfl {[s 'a']} [s
  'a']
example := C36_every_text c!" a|b\n"
example := C36_nesting_bound cl1 cl1_seg c!"((a))" 1

end Dandy
