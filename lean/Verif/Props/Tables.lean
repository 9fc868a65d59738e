import Verif.Proofs.TableAlign
import Verif.Props.Samples
/-! # C40 – C43, C59: texts of tables -/

namespace Dandy
open Samples TableText

/-! ## C43: the parser accepts exactly the texts of tables -/

/-- C43: whatever `parser::dfa` returns, the text is a text of this table. -/
theorem C43_dfa_sound (t : Str) (p : ParsedDfa) (h : Fa.dfa t = some p) : DfaText p t := fa_dfa_iff.1 h

/-- C43: whatever `parser::nfa` returns, the text is a text of this table. -/
theorem C43_nfa_sound (t : Str) (p : ParsedNfa) (h : Fa.nfa t = some p) : NfaText p t := fa_nfa_iff.1 h

/-- Items of a spaced list satisfy what every item satisfies. -/
theorem Spaced.all {α : Type} {Item : α → Str → Prop} {as : List α} {t : Str} (h : Spaced Item as t) :
    ∀ a ∈ as, ∃ u, Item a u := by
  induction h with
  | one h => intro a ha; rw [List.mem_singleton.1 ha]; exact ⟨_, h⟩
  | cons h _ _ _ ih =>
    intro a ha
    rcases List.mem_cons.1 ha with rfl | ha
    · exact ⟨_, h⟩
    · exact ih a ha

theorem Rows.all {σ : Type} {Row : σ → Str → Prop} {ss : List σ} {t : Str} (h : Rows Row ss t) : ∀ s ∈ ss, ∃ u, Row s u := by
  induction h with
  | one h => intro a ha; rw [List.mem_singleton.1 ha]; exact ⟨_, h⟩
  | cons h _ _ _ ih =>
    intro a ha
    rcases List.mem_cons.1 ha with rfl | ha
    · exact ⟨_, h⟩
    · exact ih a ha

/-- C43: the elements and names of a parsed DFA table are names (not empty, without white space, `#`, `{`, `}`, and not
reserved); there is at least one element, one state, and one target in each row. -/
theorem C43_dfa_names (t : Str) (p : ParsedDfa) (h : Fa.dfa t = some p) :
    p.head ≠ [] ∧ p.states ≠ [] ∧ (∀ e ∈ p.head, Name e) ∧
      ∀ s ∈ p.states, Name s.name ∧ s.transitions ≠ [] ∧ ∀ x ∈ s.transitions, Name x := by
  obtain ⟨k, h1, e, k', r, z, _, _, ⟨b, u, l, _, _, hu, _⟩, _, _, hr, _⟩ := fa_dfa_iff.1 h
  refine ⟨?_, ?_, ?_, ?_⟩
  · intro hn; rw [hn] at hu; cases hu
  · intro hn; rw [hn] at hr; cases hr
  · intro x hx
    obtain ⟨w, rfl, h3⟩ := Spaced.all hu x hx
    exact h3
  · intro s hs
    obtain ⟨w, b, i, a, n, b', u, l, _, _, _, _, hn, _, _, hu, _⟩ := Rows.all hr s hs
    refine ⟨hn.1 ▸ hn.2, ?_, ?_⟩
    · intro hn; rw [hn] at hu; cases hu
    · intro x hx
      obtain ⟨w, rfl, h3⟩ := Spaced.all hu x hx
      exact h3

/-- C43: the same for NFA tables; sets of targets may be empty. -/
theorem C43_nfa_names (t : Str) (p : ParsedNfa) (h : Fa.nfa t = some p) :
    p.head ≠ [] ∧ p.states ≠ [] ∧ (∀ e, .element e ∈ p.head → Name e) ∧
      ∀ s ∈ p.states, Name s.name ∧ s.transitions ≠ [] ∧ ∀ xs ∈ s.transitions, ∀ x ∈ xs, Name x := by
  obtain ⟨k, h1, e, k', r, z, _, _, ⟨b, u, l, _, _, hu, _⟩, _, _, hr, _⟩ := fa_nfa_iff.1 h
  refine ⟨?_, ?_, ?_, ?_⟩
  · intro hn; rw [hn] at hu; cases hu
  · intro hn; rw [hn] at hr; cases hr
  · intro x hx
    obtain ⟨w, rfl, h3⟩ := Spaced.all hu _ hx
    exact h3
  · intro s hs
    obtain ⟨w, b, i, a, n, b', u, l, _, _, _, _, hn, _, _, hu, _⟩ := Rows.all hr s hs
    refine ⟨hn.1 ▸ hn.2, ?_, ?_⟩
    · intro hn; rw [hn] at hu; cases hu
    · intro xs hxs x hx
      obtain ⟨w, _, v, _, _, _, _, hv⟩ := Spaced.all hu xs hxs
      rcases hv with ⟨rfl, _⟩ | hv
      · cases hx
      · obtain ⟨y, rfl, h3⟩ := Spaced.all hv x hx
        exact h3

/-- A text with many layout features: CRLF, comments, tabs, ignored lines, no end of the last line. -/
def messyDfa : Str := c!" # even\n\n\t b   a#x\r\n  #\n * y y\t n # -> *\n\r\n-> n  y n  "

example : Fa.dfa messyDfa = some ⟨[s 'b', s 'a'], [⟨s 'y', false, true, [s 'y', s 'n']⟩, ⟨s 'n', true, false, [s 'y', s 'n']⟩]⟩ := by
  decide +kernel
/-- Names that begin with reserved words. -/
def trickyDfa : Str := c!"eps1 *a\n-> ->x  ->x **\n* ** ->x **\n"

example : Fa.dfa trickyDfa = some ⟨[c!"eps1", c!"*a"], [⟨c!"->x", true, false, [c!"->x", c!"**"]⟩, ⟨c!"**", false, true, [c!"->x", c!"**"]⟩]⟩ := by
  decide +kernel
example : Fa.dfa c!"a\n-> * a\n" = none := by decide +kernel
example : Fa.dfa c!"a\n* -> x x\n" = none := by decide +kernel
example : Fa.nfa c!"a eps\n→ x { x\ty} {}\n y {} {\t}#" =
    some ⟨[.element (s 'a'), .eps], [⟨s 'x', true, false, [[s 'x', s 'y'], []]⟩, ⟨s 'y', false, false, [[], []]⟩]⟩ := by
  decide +kernel

/-! ## C42: the layout does not matter -/

/-- C42: every text of a DFA table is accepted and gives this table. -/
theorem C42_dfa_complete (t : Str) (p : ParsedDfa) (h : DfaText p t) : Fa.dfa t = some p := fa_dfa_iff.2 h

/-- C42: every text of an NFA table is accepted and gives this table. -/
theorem C42_nfa_complete (t : Str) (p : ParsedNfa) (h : NfaText p t) : Fa.nfa t = some p := fa_nfa_iff.2 h

/-- C42: two texts of the same DFA table give the same result, and a text is the text of one table only. -/
theorem C42_dfa_layout (t t' : Str) (p p' : ParsedDfa) (h : DfaText p t) :
    (DfaText p t' → Fa.dfa t = Fa.dfa t') ∧ (DfaText p' t → p = p') := by
  refine ⟨fun h' => (fa_dfa_iff.2 h).trans (fa_dfa_iff.2 h').symm, fun h' => ?_⟩
  have := (fa_dfa_iff.2 h).symm.trans (fa_dfa_iff.2 h')
  simpa using this

/-- C42: the same for NFA tables. -/
theorem C42_nfa_layout (t t' : Str) (p p' : ParsedNfa) (h : NfaText p t) :
    (NfaText p t' → Fa.nfa t = Fa.nfa t') ∧ (NfaText p' t → p = p') := by
  refine ⟨fun h' => (fa_nfa_iff.2 h).trans (fa_nfa_iff.2 h').symm, fun h' => ?_⟩
  have := (fa_nfa_iff.2 h).symm.trans (fa_nfa_iff.2 h')
  simpa using this

example : DfaText ⟨[s 'b', s 'a'], [⟨s 'y', false, true, [s 'y', s 'n']⟩, ⟨s 'n', true, false, [s 'y', s 'n']⟩]⟩ messyDfa :=
  C43_dfa_sound _ _ (by decide +kernel)
example : Fa.dfa messyDfa = Fa.dfa c!"b a\n* y y n\n→ n y n" := by decide +kernel

/-- Documented, but false: "any lines containing only whitespace are ignored" (a line with a no-break space is an error). -/
theorem C42_false_whitespace_line : Fa.dfa c!"a\n→ x x\n \n" ≠ none ∧ Fa.dfa ['a', '\n', '→', ' ', 'x', ' ', 'x', '\n', Char.ofNat 0xA0, '\n'] = none := by
  decide +kernel

/-! ## C40, C41: printing and reading -/

/-- C40: `to_table` and `ascii_table` of a valid DFA with at least one element, all of whose elements and state names are
names, succeed, and reading the text gives the same DFA. -/
theorem C40_roundtrip (d : Dfa) (h : d.WF) (hne : d.alphabet ≠ []) (hal : ∀ e ∈ d.alphabet, Name e)
    (hnm : ∀ s ∈ d.states, Name s.name) :
    (∃ t p, d.toTable = some t ∧ Fa.dfa t = some p ∧ Validate.dfa p = .ok d) ∧
    ∃ t p, d.asciiTable = some t ∧ Fa.dfa t = some p ∧ Validate.dfa p = .ok d := by
  refine ⟨?_, ?_⟩
  · obtain ⟨t, p, h1, h2, h3⟩ := dfa_roundtrip h hne hal hnm (arrow := ['→']) (by simp)
    exact ⟨t, p, h1, fa_dfa_iff.2 h2, h3⟩
  · obtain ⟨t, p, h1, h2, h3⟩ := dfa_roundtrip h hne hal hnm (arrow := ['-', '>']) (by simp)
    exact ⟨t, p, h1, fa_dfa_iff.2 h2, h3⟩

/-- Any DFA read from a text satisfies the conditions of `C40_roundtrip`. -/
theorem C40_parsed (t : Str) (p : ParsedDfa) (d : Dfa) (h : Fa.dfa t = some p) (hv : Validate.dfa p = .ok d) :
    d.WF ∧ d.alphabet ≠ [] ∧ (∀ e ∈ d.alphabet, Name e) ∧ ∀ s ∈ d.states, Name s.name := by
  obtain ⟨h1, h2, h3, h4⟩ := C43_dfa_names t p h
  obtain ⟨hl, hd⟩ := dfa_ok hv
  refine ⟨hd.wf hl, hd.alphabet ▸ h1, hd.alphabet ▸ h3, ?_⟩
  intro s hs
  obtain ⟨i, hi⟩ := List.mem_iff_getElem?.1 hs
  have hlt := (List.getElem?_eq_some_iff.1 hi).1
  rw [hd.count] at hlt
  have hp := List.getElem?_eq_getElem hlt
  rw [(hd.rows i _ s hp hi).1]
  exact (h4 _ (List.mem_of_getElem? hp)).1

/-- A DFA with long names of different lengths, two of which begin with a reserved word. -/
def longNames : Dfa :=
  { alphabet := [c!"ab", c!"->c"],
    states := [⟨c!"*n", false, true, [1, 0]⟩, ⟨c!"état-ε", true, true, [1, 2]⟩, ⟨c!"eps_", false, false, [0, 0]⟩],
    initialState := 1 }

theorem longNames_names : (∀ e ∈ longNames.alphabet, Name e) ∧ ∀ s ∈ longNames.states, Name s.name := by
  constructor
  · intro e he
    rw [name_iff]
    revert e
    decide
  · intro s hs
    rw [name_iff]
    revert s
    decide

example : ∃ t p, longNames.toTable = some t ∧ Fa.dfa t = some p ∧ Validate.dfa p = .ok longNames :=
  (C40_roundtrip longNames (Dfa.wf_of_wfB (by decide)) (by decide) longNames_names.1 longNames_names.2).1
example : longNames.asciiTable = some c!"            ab     ->c \n   * *n     état-ε *n \n-> * état-ε état-ε eps_ \n     eps_   *n     *n " := by
  decide +kernel

/-- The documentation of `to_table` ("may be parsed again to this automaton") is false for an empty alphabet. -/
theorem C40_false_empty_alphabet : ∃ (d : Dfa) (t : Str), d.WF ∧ (∀ s ∈ d.states, Name s.name) ∧ d.toTable = some t ∧ Fa.dfa t = none :=
  ⟨⟨[], [⟨s 'x', true, true, []⟩], 0⟩, c!"     \n→ * x ", Dfa.wf_of_wfB (by decide), by
    intro s hs; rw [name_iff]; revert s; decide, by decide +kernel, by decide +kernel⟩

/-- C41: `to_table` and `ascii_table` of a valid NFA, all of whose elements and state names are names, succeed, and reading
the text gives the same NFA. -/
theorem C41_roundtrip (n : Nfa) (h : n.WF) (hal : ∀ e ∈ n.alphabet, Name e) (hnm : ∀ s ∈ n.states, Name s.name) :
    (∃ t p, n.toTable = some t ∧ Fa.nfa t = some p ∧ Validate.nfa p = .ok n) ∧
    ∃ t p, n.asciiTable = some t ∧ Fa.nfa t = some p ∧ Validate.nfa p = .ok n := by
  refine ⟨?_, ?_⟩
  · obtain ⟨t, p, h1, h2, h3⟩ := nfa_roundtrip h hal hnm (eps := ['ε']) (arrow := ['→']) (Or.inl rfl) (by simp)
    exact ⟨t, p, h1, fa_nfa_iff.2 h2, h3⟩
  · obtain ⟨t, p, h1, h2, h3⟩ := nfa_roundtrip h hal hnm (eps := ['e', 'p', 's']) (arrow := ['-', '>']) (Or.inr rfl) (by simp)
    exact ⟨t, p, h1, fa_nfa_iff.2 h2, h3⟩

/-- Any NFA read from a text satisfies the conditions of `C41_roundtrip`. -/
theorem C41_parsed (t : Str) (p : ParsedNfa) (n : Nfa) (h : Fa.nfa t = some p) (hv : Validate.nfa p = .ok n) :
    n.WF ∧ (∀ e ∈ n.alphabet, Name e) ∧ ∀ s ∈ n.states, Name s.name := by
  obtain ⟨h1, h2, h3, h4⟩ := C43_nfa_names t p h
  obtain ⟨hl, hd⟩ := nfa_ok hv
  refine ⟨hd.wf hl, ?_, ?_⟩
  · intro e he
    rw [hd.alphabet] at he
    exact h3 e (mem_headElems.1 he)
  · intro s hs
    obtain ⟨i, hi⟩ := List.mem_iff_getElem?.1 hs
    have hlt := (List.getElem?_eq_some_iff.1 hi).1
    rw [hd.count] at hlt
    have hp := List.getElem?_eq_getElem hlt
    rw [(hd.flags i _ s hp hi).1]
    exact (h4 _ (List.mem_of_getElem? hp)).1

theorem epsNfa_names : (∀ e ∈ epsNfa.alphabet, Name e) ∧ ∀ s ∈ epsNfa.states, Name s.name := by
  constructor
  · intro e he
    rw [name_iff]
    revert e
    decide
  · intro s hs
    rw [name_iff]
    revert s
    decide

example : ∃ t p, epsNfa.asciiTable = some t ∧ Fa.nfa t = some p ∧ Validate.nfa p = .ok epsNfa :=
  (C41_roundtrip epsNfa epsNfa_wf epsNfa_names.1 epsNfa_names.2).2

/-! ## C59: columns -/

/-- `t` shows the DFA in columns: one line for the alphabet and one for each state. -/
def ShowsDfa (d : Dfa) (arrow t : Str) : Prop := ∃ rows lines, t = List.intercalate ['\n'] lines ∧
    AlignedLines rows lines ∧ rows.length = d.states.length + 1 ∧ rows[0]? = some ([[], [], []] ++ d.alphabet) ∧
    ∀ (i : Nat) s, d.states[i]? = some s → ∃ ns, rows[i + 1]? = some
      ([if s.initial then arrow else [], if s.accepting then ['*'] else [], s.name] ++ ns) ∧
      List.Forall₂ (fun j t => ∃ st, d.states[j]? = some st ∧ st.name = t) s.transitions ns

/-- `t` shows the NFA in columns: one line for the alphabet and one for each state, with the names of the targets in braces. -/
def ShowsNfa (n : Nfa) (eps arrow t : Str) : Prop := ∃ rows lines, t = List.intercalate ['\n'] lines ∧
    AlignedLines rows lines ∧ rows.length = n.states.length + 1 ∧ rows[0]? = some ([[], [], [], eps] ++ n.alphabet) ∧
    ∀ (i : Nat) s, n.states[i]? = some s → ∃ cs, rows[i + 1]? = some
      ([if s.initial then arrow else [], if s.accepting then ['*'] else [], s.name] ++ cs) ∧
      List.Forall₂ (fun js c => ∃ ns, c = '{' :: List.intercalate [' '] ns ++ ['}'] ∧
        List.Forall₂ (fun j t => ∃ st, n.states[j]? = some st ∧ st.name = t) js ns) (s.epsilonTransitions :: s.transitions) cs

/-- C59: `to_table` and `ascii_table` of a valid DFA print the automaton in columns, whatever the names. -/
theorem C59_dfa_aligned (d : Dfa) (h : d.WF) :
    (∃ t, d.toTable = some t ∧ ShowsDfa d ['→'] t) ∧ ∃ t, d.asciiTable = some t ∧ ShowsDfa d ['-', '>'] t := by
  refine ⟨?_, ?_⟩
  · obtain ⟨rows, lines, h1, h2⟩ := dfa_aligned h ['→']
    exact ⟨_, h1, rows, lines, rfl, h2⟩
  · obtain ⟨rows, lines, h1, h2⟩ := dfa_aligned h ['-', '>']
    exact ⟨_, h1, rows, lines, rfl, h2⟩

/-- C59: the same for NFAs. -/
theorem C59_nfa_aligned (n : Nfa) (h : n.WF) :
    (∃ t, n.toTable = some t ∧ ShowsNfa n ['ε'] ['→'] t) ∧ ∃ t, n.asciiTable = some t ∧ ShowsNfa n ['e', 'p', 's'] ['-', '>'] t := by
  refine ⟨?_, ?_⟩
  · obtain ⟨rows, lines, h1, h2⟩ := nfa_aligned h ['ε'] ['→']
    exact ⟨_, h1, rows, lines, rfl, h2⟩
  · obtain ⟨rows, lines, h1, h2⟩ := nfa_aligned h ['e', 'p', 's'] ['-', '>']
    exact ⟨_, h1, rows, lines, rfl, h2⟩

example : ∃ t, longNames.toTable = some t ∧ ShowsDfa longNames ['→'] t := (C59_dfa_aligned longNames (Dfa.wf_of_wfB (by decide))).1
example : epsNfa.WF := epsNfa_wf

/-! ## Instances of the theorems of this file -/

example := C43_nfa_sound c!"a b\n→ n {n} {n y}\n* y {} {}" _ rfl
example := C43_dfa_names c!"a b\n→ n n n" _ rfl
example := C40_parsed c!"a b\n→ n n n" _ _ rfl rfl
example := C41_parsed c!"a b\n→ n {n} {n y}\n* y {} {}" _ _ rfl rfl
example := C42_dfa_complete c!"a b\n→ n n n" _ (C43_dfa_sound _ _ rfl)
example := C42_nfa_complete c!"a b\n→ n {n} {n y}\n* y {} {}" _ (C43_nfa_sound _ _ rfl)
example := C42_dfa_layout c!"a b\n→ n n n" c!"a b # c\n\n-> n n n\n" _ ⟨[], []⟩ (C43_dfa_sound _ _ rfl) |>.1 (C43_dfa_sound _ _ rfl)
example := C42_nfa_layout c!"a eps\n→ n {n} {n}" c!"a ε\n-> n { n} { n }\n" _ ⟨[], []⟩ (C43_nfa_sound _ _ rfl) |>.1 (C43_nfa_sound _ _ rfl)

end Dandy
