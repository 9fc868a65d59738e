import Verif.Props.CliMain
import Verif.Props.Site
/-!
# Exactly when results can be read again

Properties C40, C41, C71 and C78: the conditions of the theorems on reading written automata cannot be weakened.
-/

namespace Dandy

open Samples
open TableText (Name)
open Cli (Automata IsTextOf)

/-- **C40** A valid DFA can be read from its table exactly if it has an element and all elements and state names can be written. -/
theorem C40_iff (d : Dfa) (h : d.WF) :
    ((∃ t p, d.toTable = some t ∧ Fa.dfa t = some p ∧ Validate.dfa p = .ok d) ↔
      d.alphabet ≠ [] ∧ (∀ e ∈ d.alphabet, Name e) ∧ ∀ s ∈ d.states, Name s.name) ∧
    ((∃ t p, d.asciiTable = some t ∧ Fa.dfa t = some p ∧ Validate.dfa p = .ok d) ↔
      d.alphabet ≠ [] ∧ (∀ e ∈ d.alphabet, Name e) ∧ ∀ s ∈ d.states, Name s.name) := by
  refine ⟨⟨?_, ?_⟩, ?_, ?_⟩
  · rintro ⟨t, p, _, h1, h2⟩
    exact (C40_parsed t p d h1 h2).2
  · rintro ⟨h1, h2, h3⟩
    exact (C40_roundtrip d h h1 h2 h3).1
  · rintro ⟨t, p, _, h1, h2⟩
    exact (C40_parsed t p d h1 h2).2
  · rintro ⟨h1, h2, h3⟩
    exact (C40_roundtrip d h h1 h2 h3).2

/-- Both sides are false for an element that cannot be written, and true for the DFA with long names. -/
example : ¬ ∃ t p, (⟨[c!"#"], [⟨s 'x', true, true, [0]⟩], 0⟩ : Dfa).toTable = some t ∧ Fa.dfa t = some p ∧
    Validate.dfa p = .ok ⟨[c!"#"], [⟨s 'x', true, true, [0]⟩], 0⟩ := by
  rw [(C40_iff _ (Dfa.wf_of_wfB (by decide))).1]
  rintro ⟨_, h, _⟩
  exact absurd (name_iff.1 (h c!"#" (by decide))) (by decide)
example : ∃ t p, longNames.toTable = some t ∧ Fa.dfa t = some p ∧ Validate.dfa p = .ok longNames :=
  (C40_iff _ (Dfa.wf_of_wfB (by decide))).1.2 ⟨by decide, longNames_names.1, longNames_names.2⟩

/-- **C41** A valid NFA can be read from its table exactly if all elements and state names can be written. -/
theorem C41_iff (n : Nfa) (h : n.WF) :
    ((∃ t p, n.toTable = some t ∧ Fa.nfa t = some p ∧ Validate.nfa p = .ok n) ↔
      (∀ e ∈ n.alphabet, Name e) ∧ ∀ s ∈ n.states, Name s.name) ∧
    ((∃ t p, n.asciiTable = some t ∧ Fa.nfa t = some p ∧ Validate.nfa p = .ok n) ↔
      (∀ e ∈ n.alphabet, Name e) ∧ ∀ s ∈ n.states, Name s.name) := by
  refine ⟨⟨?_, ?_⟩, ?_, ?_⟩
  · rintro ⟨t, p, _, h1, h2⟩
    exact (C41_parsed t p n h1 h2).2
  · rintro ⟨h1, h2⟩
    exact (C41_roundtrip n h h1 h2).1
  · rintro ⟨t, p, _, h1, h2⟩
    exact (C41_parsed t p n h1 h2).2
  · rintro ⟨h1, h2⟩
    exact (C41_roundtrip n h h1 h2).2

/-- The elements of a DFA that has been written. -/
private theorem text_dfa {cl : Str → Nat} {t : Str} {d : Dfa} (h : IsTextOf cl t (.dfa d)) : d.alphabet ≠ [] ∧ ∀ e ∈ d.alphabet, Name e := by
  obtain ⟨p, h1, h2, h3⟩ := h
  obtain ⟨h4, _, h5, _⟩ := C43_dfa_names t p (C42_dfa_complete t p h1)
  rw [h3.alphabet]
  exact ⟨h4, h5⟩

/-- The elements of an NFA that has been written. -/
private theorem text_nfa {cl : Str → Nat} {t : Str} {n : Nfa} (h : IsTextOf cl t (.nfa n)) : ∀ e ∈ n.alphabet, Name e := by
  obtain ⟨p, h1, h2, h3⟩ := h
  obtain ⟨m, hm⟩ := (C39_succeeds_iff p).2 h2
  have := (C39_content p m hm).2.2 n h3
  subst this
  exact (C41_parsed t p n (C42_nfa_complete t p h1) hm).2.1

section Page
open Site

/-- **C71** After a click on the button converting an NFA, the result is a text of a DFA with the same alphabet and language exactly if there
is an element. -/
theorem C71_nfa_to_dfa_iff (env : Site.Env) (hcl : Segmentation env.cl) (es : List Event) (hes : ∀ e ∈ es, e.Valid) (o : Orders) (p : Page)
    (hp : history env es = some p) (n : Nfa) (hn : IsTextOf env.cl (p.value .nfaToDfa) (.nfa n)) :
    ∃ q, history env (.click .nfaToDfa o :: es) = some q ∧
      ((∃ d, IsTextOf env.cl (q.value .nfaToDfaOut) (.dfa d) ∧ d.alphabet = n.alphabet ∧ ∀ w, d.Lang w ↔ n.Lang w) ↔ n.alphabet ≠ []) := by
  obtain ⟨q, h1, _, _, h2, _⟩ := C71_nfa_to_dfa env hcl es hes o p hp
  refine ⟨q, h1, ?_, h2 n hn⟩
  rintro ⟨d, h3, h4, _⟩
  rw [← h4]
  exact (text_dfa h3).1

/-- **C71** After a click on the button converting an expression, the result is a text of an NFA with the elements and the language of the
expression exactly if its elements can be written in tables. -/
theorem C71_regex_iff (env : Site.Env) (hcl : Segmentation env.cl) (es : List Event) (hes : ∀ e ∈ es, e.Valid) (o : Orders)
    (p : Page) (hp : history env es = some p) (r : RegexTree) (hr : IsTextOf env.cl (p.value .regex) (.regex r)) :
    ∃ q, history env (.click .regexToNfa o :: es) = some q ∧
      ((∃ n, IsTextOf env.cl (q.value .regexOut) (.nfa n) ∧ (Automata.regex r).HasAlphabet n.alphabet ∧ ∀ w, n.Lang w ↔ Matches r w) ↔
        ∀ e ∈ r.graphemes, Name e) := by
  obtain ⟨q, h1, _, h2, _⟩ := C71_regex env hcl es hes o p hp
  refine ⟨q, h1, ?_, (h2 r hr).2⟩
  rintro ⟨n, h3, h4, _⟩ e he
  exact text_nfa h3 e ((h4.2.1 e).2 he)

/-- The expression `#|a` is converted to a text that cannot be read; `b|a` to one that can. -/
example : (history browser [.click .regexToNfa orders0, .edit .regex c!"#|a"]).map
      (fun p => (Wasm.loadNfa .init (p.value .regexOut)).2) = some (.loaded (.error (.validate (.wrongNumberOfTransitions c!"0" 3 1)))) ∧
    (history browser [.click .regexToNfa orders0, .edit .regex c!"b|a"]).map
      (fun p => (Wasm.loadNfa .init (p.value .regexOut)).2) = some (.loaded (.ok 1)) := by decide +kernel

/-- The text on the page when it is opened. -/
example : ∃ n, IsTextOf browser.cl (start.value .nfaToDfa) (.nfa n) ∧ ∃ q, history browser [.click .nfaToDfa orders0] = some q ∧
    ((∃ d, IsTextOf browser.cl (q.value .nfaToDfaOut) (.dfa d) ∧ d.alphabet = n.alphabet ∧ ∀ w, d.Lang w ↔ n.Lang w) ↔ n.alphabet ≠ []) := by
  obtain ⟨a, h1, h2⟩ := start_legal.2.2.2
  cases a with
  | nfa n => exact ⟨n, h2, C71_nfa_to_dfa_iff browser cl1_seg [] nofun orders0 start rfl n h2⟩
  | dfa _ => cases h1
  | regex _ => cases h1

end Page

section Program
open Cli Cli.Automata

/-- Elements do not depend on which description of the alphabet is used. -/
private theorem HasAlphabet.elems {a : Automata} {l : List Str} (h : a.HasAlphabet l) : ∀ e, e ∈ l ↔ e ∈ a.elems := by
  cases a with
  | dfa d => intro e; rw [show l = d.alphabet from h]; rfl
  | nfa n => intro e; rw [show l = n.alphabet from h]; rfl
  | regex t => exact h.2.1

/-- **C78** The output file of a binary operation is a DFA text of the result, with its alphabet and the combined language, exactly if the first
operand has an element and its elements can be written in tables. -/
theorem C78_result_iff (h : Host) (hcl : Segmentation h.cl) (o : RunOrd) (ho : o.Valid) (w : World) (out : Str) (noLog : Bool)
    (b : BinaryOpArgs) (op : BinaryOperation) (hc : h.createError out = none) (hf1 : w.file b.first ≠ w.file out)
    (hf2 : w.file b.second ≠ w.file out) (hen : b.enumerate = none) (hca : b.compareAgainst = none)
    (a1 a2 : Automata) (h1 : Cli.Contains h w b.first b.type a1)
    (h2 : Cli.Contains h w b.second (b.secondType.getD b.type) a2) (hs : SameElems a1.elems a2.elems) :
    ∃ r, main h o w ⟨some out, noLog, op.command b⟩ = some r ∧
      ((∃ d, Cli.Contains h r.world out .dfa (.dfa d) ∧ a1.HasAlphabet d.alphabet ∧ ∀ x, d.Lang x ↔ op.Combine (a1.Lang x) (a2.Lang x)) ↔
        a1.elems ≠ [] ∧ ∀ e ∈ a1.elems, Name e) := by
  obtain ⟨r, hr⟩ := C76_total h hcl o ho w ⟨some out, noLog, op.command b⟩
  refine ⟨r, hr, ?_, ?_⟩
  · rintro ⟨d, ⟨t, _, _, h3⟩, h4, _⟩
    obtain ⟨h5, h6⟩ := text_dfa h3
    have h7 := HasAlphabet.elems h4
    refine ⟨?_, fun e he => h6 e ((h7 e).2 he)⟩
    intro hx
    rcases hl : d.alphabet with _ | ⟨x, l⟩
    · exact h5 hl
    · have := (h7 x).1 (by rw [hl]; exact List.mem_cons_self)
      rw [hx] at this
      cases this
  · intro hn
    obtain ⟨r', d, h3, _, h4, h5, h6, _⟩ := C78_result h hcl o ho w out noLog b op hc hf1 hf2 hen hca a1 a2 h1 h2 hs (.inr hn)
    rw [hr] at h3
    cases h3
    exact ⟨d, h4, h5, h6⟩

example : ∃ r, main host0 runOrd0 world0 ⟨some c!"new.dfa", true, .intersection bin0⟩ = some r ∧
    ∃ d, Cli.Contains host0 r.world c!"new.dfa" .dfa (.dfa d) ∧ minD.HasAlphabet d.alphabet ∧ ∀ x, d.Lang x ↔ minD.Lang x ∧ oddD.Lang x := by
  obtain ⟨r, h1, h2⟩ := C78_result_iff host0 cl1_seg runOrd0 runOrd0_valid world0 c!"new.dfa" true bin0 .intersection (by decide) (by decide)
    (by decide) rfl rfl minD oddD (contains_of_load cl1_seg minD_load) (contains_of_load cl1_seg oddD_load)
    (fun e => by simp [minD, oddD, Automata.elems, or_comm])
  exact ⟨r, h1, h2.2 ⟨by decide, fun e he => name_iff.2 (by revert e; decide)⟩⟩

end Program

/-! ## Instances of the theorems of this file -/

example := C41_iff Samples.epsNfa Samples.epsNfa_wf

end Dandy
