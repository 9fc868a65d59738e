import Verif.Model.Bench
import Verif.Proofs.RegexCongr
import Verif.Spec.Cli
import Verif.Props.DfaMinimize
import Verif.Props.DfaProduct
import Verif.Props.Docs
import Verif.Props.Graphemes
import Verif.Props.NfaToDfa
import Verif.Props.Unicode
/-! # C97: what the benchmarks measure -/

namespace Dandy
open Samples

/-- **C36** The tree of an ASCII text (without carriage returns) does not depend on the segmentation into clusters: it is the one for single
characters. -/
theorem C36_ascii (cl : Str → Nat) (hb : BreaksAscii cl) (text : Str) (h : ∀ c ∈ text, c.toNat < 128 ∧ c ≠ '\r') :
    RegexParser.regex cl text = RegexParser.regex cl1 text := by
  have hsub : ∀ s : Str, s <:+ trim text → s ⊆ text := by
    intro s hs c hc
    have h1 := hs.subset hc
    unfold trim at h1
    rw [List.mem_reverse] at h1
    have h2 := (List.dropWhile_sublist _).subset h1
    rw [List.mem_reverse] at h2
    exact (List.dropWhile_sublist _).subset h2
  refine RegexParser.regex_congr fun s hs hne => ?_
  cases s with
  | nil => exact absurd rfl hne
  | cons c r =>
    have hm := hsub _ hs
    rw [hb c r (h c (hm List.mem_cons_self)).1 (h c (hm List.mem_cons_self)).2 fun d hd =>
      .inl (h d (hm (List.mem_cons_of_mem _ (List.mem_of_mem_head? hd)))).1]
    simp [cl1]

example : (∀ c ∈ c!" (ab|c)*d+\t", c.toNat < 128 ∧ c ≠ '\r') ∧ (RegexParser.regex cl1 c!" (ab|c)*d+\t").isSome = true := by decide +kernel

namespace Bench

/-- The words of `regex6.txt`: one of these letters, or a long word. -/
def words6 : List Str := c!"vtwumoczibrgkhq".map (fun c => [c]) ++ [c!"moblvpxmljcsudq"]

private def letters : List Str := c!"abcdef".map (fun c => [c])

private def validB (t : Str) : Bool :=
  match load t with
  | none => false
  | some d => d.wfB && d.alphabet.isPerm letters

private theorem valid_of {t : Str} (h : validB t = true) : ∃ d, load t = some d ∧ d.WF ∧ d.alphabet.Perm letters := by
  unfold validB at h
  cases hd : load t with
  | none => rw [hd] at h; cases h
  | some d =>
    rw [hd] at h
    simp only [Bool.and_eq_true] at h
    exact ⟨d, rfl, Dfa.wf_of_wfB h.1, List.isPerm_iff.1 h.2⟩

private theorem all_valid : ∀ t ∈ dfas, validB t = true := by decide +kernel

private theorem asciiText : ∀ t ∈ regexes, ∀ c ∈ t, c.toNat < 128 ∧ c ≠ '\r' := by decide +kernel

private theorem all_parse : ∀ t ∈ regexes, (RegexParser.regex cl1 t).isSome = true := by decide +kernel

end Bench
open Bench

/-- **C97** All example files of the benchmarks can be read, and the DFAs have the same elements, so that any two of them can be combined. -/
theorem C97_files :
    (∀ t ∈ dfas, ∃ d, load t = some d ∧ d.WF ∧ SameElems d.alphabet [s 'a', s 'b', s 'c', s 'd', s 'e', s 'f']) ∧
    ∀ cl, BreaksAscii cl → ∀ t ∈ regexes, ∃ tree, RegexParser.regex cl t = some tree := by
  refine ⟨fun t ht => ?_, fun cl hb t ht => ?_⟩
  · obtain ⟨d, h1, h2, h3⟩ := valid_of (all_valid t ht)
    exact ⟨d, h1, h2, fun e => h3.mem_iff⟩
  · rw [C36_ascii cl hb t (asciiText t ht)]
    exact Option.isSome_iff_exists.1 (all_parse t ht)

example : dfas.length = 10 ∧ regexes.length = 10 := by decide

/-- **C97** `powerset`: the four measured calls return DFAs, with the languages that the names of the benchmarks say. -/
theorem C97_powerset (ord : List (Nat × Nat) → List (Nat × Nat)) (hord : ∀ l, (ord l).Perm l) :
    ∃ d o u i f x, load dfa0 = some d ∧ load dfa1 = some o ∧ powerset ord = some [some u, some i, some f, some x] ∧
      ∀ w, (u.accepts w = true ↔ d.accepts w = true ∨ o.accepts w = true) ∧ (i.accepts w = true ↔ d.accepts w = true ∧ o.accepts w = true) ∧
        (f.accepts w = true ↔ d.accepts w = true ∧ ¬ o.accepts w = true) ∧ (x.accepts w = true ↔ ¬ (d.accepts w = true ↔ o.accepts w = true)) := by
  obtain ⟨d, h1, h2, h3⟩ := valid_of (all_valid dfa0 (by simp [dfas]))
  obtain ⟨o, k1, k2, k3⟩ := valid_of (all_valid dfa1 (by simp [dfas]))
  have hs : SameElems d.alphabet o.alphabet := fun e => (h3.trans k3.symm).mem_iff
  obtain ⟨⟨u, u1, u2, _, u3⟩, ⟨i, i1, i2, _, i3⟩, ⟨f, f1, f2, _, f3⟩, ⟨x, x1, x2, _, x3⟩⟩ := (C09_dfa_set_operations ord hord d o h2 k2).2 hs
  refine ⟨d, o, u, i, f, x, h1, k1, ?_, fun w => ?_⟩
  · simp [powerset, dfas, h1, k1, u1, i1, f1, x1]
  · simp only [C01_dfa_accepts_iff _ h2, C01_dfa_accepts_iff _ k2, C01_dfa_accepts_iff _ u2, C01_dfa_accepts_iff _ i2,
      C01_dfa_accepts_iff _ f2, C01_dfa_accepts_iff _ x2]
    exact ⟨u3 w, i3 w, f3 w, x3 w⟩

/-- The results have 50 states, of at most 51. -/
example : (powerset id).map (List.map (Option.map (fun d => d.states.length))) = some [some 50, some 50, some 50, some 50] := by decide +kernel

/-- **C97** If the initial states of two DFAs with the same elements differ in acceptance, the equivalence check is over at once: its work
does not depend on the states. -/
theorem C97_at_once (d o : Dfa) (hd : d.WF) (ho : o.WF) (hs : SameElems d.alphabet o.alphabet) (hw : ¬ (d.accepts [] = o.accepts [])) :
    d.equivalentTo o = some false ∧ d.equivalentCost o = 6 * d.alphabet.length + 6 := by
  have hl : d.alphabet.length = o.alphabet.length := by
    exact ((List.perm_ext_iff_of_nodup hd.alphabet_nodup ho.alphabet_nodup).2 hs).length_eq
  have ha := (alphabetEqual_iff hd.alphabet_nodup ho.alphabet_nodup).2 hs
  have hb : ((DfaEval.new d).isAccepting == (DfaEval.new o).isAccepting) = false := by
    rw [beq_eq_false_iff_ne]
    exact hw
  constructor
  · simp only [Dfa.equivalentTo, ha, Bool.not_true, Bool.false_eq_true, if_false, Dfa.pairFuel, explore, hb]
  · simp only [Dfa.equivalentCost, ha, Bool.not_true, Bool.false_eq_true, if_false, Dfa.pairFuel, exploreCost, hb, alphabetEqualCost, hl,
      ne_eq, not_true_eq_false, Dfa.evaluatorCost]
    omega

/-- **C97** `equivalence_check`: the DFAs that are compared differ in the acceptance of the empty word. So the benchmark measures making the
evaluators, and nothing of the search; it would not notice if the search became slower. -/
theorem C97_equivalence_false : equivalenceCheck = some (false, 42) ∧
    (∃ d o, load dfa0 = some d ∧ load dfa1 = some o ∧ d.accepts [] = false ∧ o.accepts [] = true) ∧
    ∀ d o : Dfa, d.WF → o.WF → SameElems d.alphabet [s 'a', s 'b', s 'c', s 'd', s 'e', s 'f'] → SameElems d.alphabet o.alphabet →
      d.accepts [] ≠ o.accepts [] → d.equivalentCost o = 42 := by
  refine ⟨by decide +kernel, ?_, fun d o hd ho h6 hs hw => ?_⟩
  · obtain ⟨d, h1, _⟩ := valid_of (all_valid dfa0 (by simp [dfas]))
    obtain ⟨o, k1, _⟩ := valid_of (all_valid dfa1 (by simp [dfas]))
    have h2 : (load dfa0).map (fun d => d.accepts []) = some false := by decide +kernel
    have k2 : (load dfa1).map (fun d => d.accepts []) = some true := by decide +kernel
    rw [h1] at h2
    rw [k1] at k2
    exact ⟨d, o, h1, k1, Option.some.inj h2, Option.some.inj k2⟩
  · rw [(C97_at_once d o hd ho hs hw).2, ((List.perm_ext_iff_of_nodup hd.alphabet_nodup (by decide)).2 h6).length_eq]
    rfl

/-- Two of the files with the same (empty) language: here the search goes on to the end. -/
example : ((load dfa4).bind fun d => (load dfa7).bind fun o => (d.equivalentTo o).map fun b => (b, d.equivalentCost o)) = some (true, 977) := by
  decide +kernel

private theorem matches_alt {ts : List RegexTree} {w : Word} : Matches (.alt ts) w ↔ ∃ t ∈ ts, Matches t w :=
  ⟨fun h => by cases h with | alt h1 h2 => exact ⟨_, h1, h2⟩, fun ⟨_, h1, h2⟩ => .alt h1 h2⟩

private theorem matches_chr {g : Str} {w : Word} : Matches (.chr (.grapheme g)) w ↔ w = [g] :=
  ⟨fun h => by cases h; rfl, fun h => h ▸ .grapheme g⟩

private theorem matches_word : ∀ {gs : List Str} {w : Word}, Matches (.seq (gs.map (fun g => .chr (.grapheme g)))) w ↔ w = gs
  | [], w => ⟨fun h => by cases h; rfl, by rintro rfl; exact .seqNil⟩
  | g :: gs, w => by
    constructor
    · intro h
      cases h with
      | seqCons h1 h2 =>
        rw [matches_chr.1 h1, matches_word.1 h2]
        rfl
    · rintro rfl
      exact .seqCons (.grapheme g) (matches_word.2 rfl)

/-- The alternatives of the expression. -/
private def alternatives (t : Str) : RegexTree :=
  match t.map (fun c => [c]) with
  | [g] => .chr (.grapheme g)
  | gs => .seq (gs.map (fun g => .chr (.grapheme g)))

private theorem matches_alternative (t : Str) (w : Word) : Matches (alternatives t) w ↔ w = t.map (fun c => [c]) := by
  unfold alternatives
  split
  · rename_i h; rw [h, matches_chr]
  · exact matches_word

private theorem words6_tree : ∃ tree, RegexParser.regex cl1 regex6 = some tree ∧
    ∀ w, Matches tree w ↔ ∃ t ∈ words6, w = t.map (fun c => [c]) := by
  let ws : List Str := c!"vtwwtumwoczibrzg".map (fun c => [c]) ++ c!"moblvpxmljcsudq" :: c!"ktzhgwtgq".map (fun c => [c])
  have h : RegexParser.regex cl1 regex6 = some (.alt (ws.map alternatives)) := by rfl
  refine ⟨_, h, fun w => ?_⟩
  rw [matches_alt]
  have hws : ∀ t, t ∈ ws ↔ t ∈ words6 := by
    intro t
    exact ⟨(by decide : ∀ t ∈ ws, t ∈ words6) t, (by decide : ∀ t ∈ words6, t ∈ ws) t⟩
  constructor
  · rintro ⟨x, hx, hm⟩
    obtain ⟨t, ht, rfl⟩ := List.mem_map.1 hx
    exact ⟨t, (hws t).1 ht, (matches_alternative t w).1 hm⟩
  · rintro ⟨t, ht, hw⟩
    exact ⟨_, List.mem_map.2 ⟨t, (hws t).2 ht, rfl⟩, (matches_alternative t w).2 hw⟩

/-- **C97** `regex_compile`: the DFA accepts one of fifteen letters and one long word, nothing else. -/
theorem C97_compile (cl : Str → Nat) (hb : BreaksAscii cl) :
    ∃ d, regexCompile cl = some d ∧ d.WF ∧ ∀ w, d.accepts w = true ↔ ∃ t ∈ words6, w = t.map (fun c => [c]) := by
  obtain ⟨tree, h1, h2⟩ := words6_tree
  obtain ⟨d, k1, k2, _, _, k3⟩ := C19_to_dfa tree.toNfa (C35_to_nfa_valid tree)
  refine ⟨d, ?_, k2, fun w => ?_⟩
  · have : RegexParser.regex cl regex6 = some tree := by
      rw [C36_ascii cl hb regex6 (asciiText regex6 (by simp [regexes])), h1]
    simp [regexCompile, regexes, this, k1]
  · rw [k3, C34_to_nfa_accepts, h2]

/-- **C97** `regex_check`: for every string, be it from the generator or not, the answer is that of a search for `^(…)$` with this expression:
whether the whole string is one of its words. -/
theorem C97_check (cl : Str → Nat) (hb : BreaksAscii cl) (seg : Str → List Str) (hs : Clusters seg) (hl : PropTests.BreaksLetters seg)
    (o : Cli.MinOrd) (ho : o.Valid) (t : Str) : regexCheck cl seg o t = some (words6.contains t) := by
  obtain ⟨d, h1, h2, h3⟩ := C97_compile cl hb
  obtain ⟨m, k1, k2, _, k3, _⟩ := C16_minimize o.u o.m o.k ho.u ho.m ho.k d h2
  simp only [regexCheck, h1, k1, Option.bind_eq_bind, Option.bind_some, Option.pure_def, Option.some.injEq]
  rw [Bool.eq_iff_iff, C60_dfa_accepts_graphemes seg m k2, k3, ← C01_dfa_accepts_iff d h2, h3, List.contains_iff_mem]
  have letters : ∀ u ∈ words6, ∀ c ∈ u, PropTests.Letter c := by
    unfold PropTests.Letter; decide
  have flat : ∀ u : Str, (u.map (fun c => [c])).flatten = u := fun u => by
    induction u with
    | nil => rfl
    | cons c u ih => rw [List.map_cons, List.flatten_cons, ih]; rfl
  constructor
  · rintro ⟨u, hu, he⟩
    have := congrArg List.flatten he
    rw [hs.flatten, flat] at this
    exact this ▸ hu
  · exact fun ht => ⟨t, ht, hl t (letters t ht)⟩

/-- With the rules of Unicode. -/
example (o : Cli.MinOrd) (ho : o.Valid) (P : Unicode.Table) (hP : P.Consistent) (hA : P.Ascii)
    (he : ∀ d, d = 'ε' ∨ d = '∅' → P.gcb d = .other ∧ P.pict d = false ∧ P.incb d = .none) :
    regexCheck (Unicode.firstCluster P) (Unicode.graphemes P) o c!"moblvpxmljcsudq" = some true ∧
    regexCheck (Unicode.firstCluster P) (Unicode.graphemes P) o c!"vt" = some false := by
  have h := C94_ascii_assumptions P hP hA
  rw [C97_check _ (h.2.2 he) _ (C94_assumptions P hP).1 h.2.1 o ho, C97_check _ (h.2.2 he) _ (C94_assumptions P hP).1 h.2.1 o ho]
  decide

/-! ## Instances of the theorems of this file -/

example := C97_at_once Samples.oddA Samples.oddA.invert Samples.oddA_wf (Dfa.wf_of_wfB (by decide)) (fun _ => Iff.rfl) (by decide)
example := C97_compile cl1 cl1_breaks

end Dandy
