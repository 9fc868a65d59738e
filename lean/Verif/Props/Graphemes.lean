import Verif.Proofs.Graphemes
import Verif.Props.DfaEvaluator
import Verif.Props.NfaEvaluator
import Verif.Props.RegexParser
import Verif.Props.Samples
/-! # Acceptance of texts split into grapheme clusters: C60 -/

namespace Dandy
open Samples RegexTree RegexParser P

/-- **C60** `accepts_graphemes` of a DFA holds iff the list of clusters of the text is in the language. -/
theorem C60_dfa_accepts_graphemes (seg : Str → List Str) (d : Dfa) (hd : d.WF) (t : Str) :
    d.acceptsGraphemes seg t = true ↔ d.Lang (seg t) := C01_dfa_accepts_iff d hd (seg t)

/-- **C60** The same for NFAs. -/
theorem C60_nfa_accepts_graphemes (seg : Str → List Str) (n : Nfa) (hn : n.WF) (t : Str) :
    n.acceptsGraphemes seg t = true ↔ n.Lang (seg t) := C02_nfa_accepts_iff n hn (seg t)

/-- **C60** `graphemes_only` holds iff every element of the alphabet is a single cluster. -/
theorem C60_graphemes_only (seg : Str → List Str) (hs : Clusters seg) (d : Dfa) (n : Nfa) :
    (d.graphemesOnly seg = true ↔ ∀ e ∈ d.alphabet, seg e = [e]) ∧ (n.graphemesOnly seg = true ↔ ∀ e ∈ n.alphabet, seg e = [e]) := by
  constructor <;> simp only [Dfa.graphemesOnly, Nfa.graphemesOnly, List.all_eq_true, beq_iff_eq, hs.length_one]

/-- **C60** Elements with several clusters are never recognized: every cluster of an accepted text is an element which is a
single cluster. -/
theorem C60_only_single (seg : Str → List Str) (hs : Clusters seg) (d : Dfa) (hd : d.WF) (t : Str)
    (h : d.acceptsGraphemes seg t = true) : ∀ e ∈ seg t, e ∈ d.alphabet ∧ seg e = [e] := by
  intro e he
  refine ⟨?_, hs.single t e he⟩
  by_contra hc
  have := C01_dfa_rejects_foreign d hd (seg t) e he hc
  have h' : d.accepts (seg t) = true := h
  rw [this] at h'
  cases h'

/-- **C60** If the clusters of the concatenation of `w` are the elements of `w`, `accepts_graphemes` of the concatenation agrees
with `accepts` of `w`. -/
theorem C60_agrees (seg : Str → List Str) (d : Dfa) (n : Nfa) (w : Word) (h : seg w.flatten = w) :
    d.acceptsGraphemes seg w.flatten = d.accepts w ∧ n.acceptsGraphemes seg w.flatten = n.accepts w := by
  unfold Dfa.acceptsGraphemes Nfa.acceptsGraphemes
  rw [h]
  exact ⟨rfl, rfl⟩

/-- **C60** An accepted text is the concatenation of exactly one word which is split in this way. -/
theorem C60_unambiguous (seg : Str → List Str) (hs : Clusters seg) (n : Nfa) (hn : n.WF) (t : Str) :
    n.acceptsGraphemes seg t = true ↔ ∃ w, n.Lang w ∧ w.flatten = t ∧ seg w.flatten = w := by
  rw [C60_nfa_accepts_graphemes seg n hn]
  constructor
  · intro h
    exact ⟨seg t, h, hs.flatten t, by rw [hs.flatten]⟩
  · rintro ⟨w, hw, rfl, h2⟩
    rw [h2]; exact hw

/-- A segmentation in which the combining acute accent belongs to the cluster before it. -/
def segMark : Str → List Str
  | [] => []
  | c :: t =>
    match segMark t with
    | [] => [[c]]
    | g :: gs => if g.head? = some '\u0301' then (c :: g) :: gs else [c] :: g :: gs

theorem segMark_step (c : Char) (t : Str) : segMark (c :: t) = match segMark t with
    | [] => [[c]]
    | g :: gs => if g.head? = some '\u0301' then (c :: g) :: gs else [c] :: g :: gs := rfl

theorem segMark_flatten : ∀ t, (segMark t).flatten = t
  | [] => rfl
  | c :: t => by
    have ih := segMark_flatten t
    rw [segMark_step]
    cases h : segMark t with
    | nil => rw [h] at ih; rw [← ih]; rfl
    | cons g gs =>
      rw [h] at ih
      dsimp only
      split
      · rw [← ih]; rfl
      · rw [← ih]; rfl

theorem segMark_nonempty : ∀ t, [] ∉ segMark t
  | [] => by simp [segMark]
  | c :: t => by
    have ih := segMark_nonempty t
    rw [segMark_step]
    cases h : segMark t with
    | nil => simp
    | cons g gs =>
      rw [h] at ih
      dsimp only
      split
      · simp only [List.mem_cons, not_or] at ih ⊢
        exact ⟨by simp, ih.2⟩
      · simp only [List.mem_cons, not_or] at ih ⊢
        exact ⟨by simp, ih⟩

theorem segMark_single : ∀ t, ∀ g ∈ segMark t, segMark g = [g]
  | [], g, h => by simp [segMark] at h
  | c :: t, g, hg => by
    have ih := segMark_single t
    rw [segMark_step] at hg
    cases h : segMark t with
    | nil => rw [h] at hg; simp only [List.mem_singleton] at hg; subst hg; rfl
    | cons g' gs =>
      rw [h] at hg ih
      dsimp only at hg
      split at hg
      · rename_i hm
        rcases List.mem_cons.1 hg with rfl | hg
        · rw [segMark_step, ih g' (by simp)]
          dsimp only
          rw [if_pos hm]
        · exact ih g (by simp [hg])
      · rcases List.mem_cons.1 hg with rfl | hg
        · rfl
        · exact ih g hg

theorem segMark_clusters : Clusters segMark := ⟨segMark_flatten, segMark_nonempty, segMark_single⟩

/-- A DFA over `e` and the combining accent: an even number of elements. -/
def evenMark : Dfa := ⟨[s 'e', s '\u0301'], [⟨s '0', true, true, [1, 1]⟩, ⟨s '1', false, false, [0, 0]⟩], 0⟩

/-- The documentation of `graphemes_only` ("if it does, one may use accepts_graphemes instead of accepts") is false when elements
join to one cluster. -/
theorem C60_false_joining : Clusters segMark ∧ evenMark.WF ∧ evenMark.graphemesOnly segMark = true ∧
    evenMark.accepts [s 'e', s '\u0301'] = true ∧ evenMark.acceptsGraphemes segMark ([s 'e', s '\u0301'] : Word).flatten = false :=
  ⟨segMark_clusters, Dfa.wf_of_wfB (by decide), by decide, by decide, by decide⟩

example : evenMark.acceptsGraphemes segMark c!"ee" = true ∧ segMark c!"ae\u0301b" = [c!"a", c!"e\u0301", c!"b"] := by decide

/-! ## Parsed regular expressions -/

/-- **C60** The alphabet of the NFA of a parsed expression consists of single clusters only. -/
theorem C60_regex_graphemes_only (cl : Str → Nat) (hcl : Segmentation cl) (seg : Str → List Str) (hs : Clusters seg)
    (hfc : FirstCluster cl seg) (text : Str) (t : RegexTree) (h : regex cl text = some t) :
    (toNfa t).graphemesOnly seg = true ∧ ∀ e ∈ (toNfa t).alphabet, e ≠ [] := by
  have hQ : ∀ s, s ≠ [] → (seg (s.take (cl s)) = [s.take (cl s)] ∧ s.take (cl s) ≠ []) := by
    intro s hne
    have hm := List.mem_of_mem_head? (Option.mem_def.2 (hfc s hne))
    exact ⟨hs.single s _ hm, fun h0 => hs.nonempty s (h0 ▸ hm)⟩
  obtain ⟨core, hcore, _⟩ := C36_every_text text
  have hG := expression_allG (Q := fun e => seg e = [e] ∧ e ≠ []) hcl hQ _ _ _ _ ((regex_some hcore).1 h)
  constructor
  · rw [(C60_graphemes_only seg hs evenMark (toNfa t)).2]
    intro e he
    exact (hG e (((C35_to_nfa_alphabet t).1 e).1 he)).1
  · intro e he
    exact (hG e (((C35_to_nfa_alphabet t).1 e).1 he)).2

/-- **C60** From the text of an expression to the texts it accepts: the NFA of a parsed expression accepts exactly the texts whose
list of clusters is in the language the documented grammar gives to the expression. -/
theorem C60_regex_accepts_graphemes (cl : Str → Nat) (hcl : Segmentation cl) (seg : Str → List Str) (text core : Str)
    (ht : Trimmed text core) (t : RegexTree) (hp : regex cl text = some t) (L : Language Str) (gs : List Str) (hl : ExprL cl core [] L gs)
    (input : Str) :
    (toNfa t).acceptsGraphemes seg input = true ↔ seg input ∈ L := 
  (C36_to_nfa cl hcl text core ht t hp L gs hl).1 (seg input)

/-- The hypotheses are met by `segMark` and the length of its first cluster. -/
example : Clusters segMark ∧ Segmentation (firstLen segMark) ∧ FirstCluster (firstLen segMark) segMark :=
  ⟨segMark_clusters, segMark_clusters.firstLen⟩

example : (regex (firstLen segMark) c!"(e\u0301|a)*b ").map (fun t => ((toNfa t).alphabet, (toNfa t).graphemesOnly segMark,
    (toNfa t).acceptsGraphemes segMark c!"ae\u0301b", (toNfa t).acceptsGraphemes segMark c!"aeb")) =
    some ([c!"e\u0301", c!"a", c!"b"], true, true, false) := by decide +kernel

/-! ## Instances of the theorems of this file -/

example := C60_dfa_accepts_graphemes segMark evenMark (Dfa.wf_of_wfB (by decide)) c!"ae\u0301"
example := C60_nfa_accepts_graphemes segMark Samples.epsNfa Samples.epsNfa_wf c!"ae\u0301"
example := C60_graphemes_only segMark segMark_clusters evenMark Samples.epsNfa
example := C60_only_single segMark segMark_clusters evenMark (Dfa.wf_of_wfB (by decide)) c!"ee" (by decide)
example := C60_agrees segMark evenMark Samples.epsNfa [c!"a", c!"e\u0301"] (by decide)
example := C60_unambiguous segMark segMark_clusters Samples.epsNfa Samples.epsNfa_wf c!"ae\u0301b"
example := C60_regex_graphemes_only (firstLen segMark) segMark_clusters.firstLen.1 segMark segMark_clusters segMark_clusters.firstLen.2
  c!"(e\u0301|a)*b " _ rfl

end Dandy
