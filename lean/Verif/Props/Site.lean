import Verif.Proofs.Site
import Verif.Props.Wasm
/-! # Properties of the page: C70-C75 -/

namespace Dandy
open Site
open Cli (AutomataType Automata IsTextOf Minimal)
open TableText (Name)

/-- A browser for the examples. -/
def browser : Site.Env := ⟨cl1, fun c => c.toNat < 0x300⟩

/-- Orders for the examples. -/
def orders0 : Orders := ⟨⟨id, id, id⟩, List.reverse⟩

theorem orders0_valid : orders0.Valid :=
  ⟨⟨fun l => List.Perm.refl l, fun l => List.Perm.refl l, fun l => List.Perm.refl l⟩, fun l => List.reverse_perm l⟩

/-- **C70** Whatever has been typed and clicked before, a click never fails. -/
theorem C70_total (env : Site.Env) (hcl : Segmentation env.cl) (es : List Event) (hes : ∀ e ∈ es, e.Valid) : ∃ p, history env es = some p := by
  obtain ⟨p, h, _⟩ := history_total env hcl es hes
  exact ⟨p, h⟩

/-- **C70** Whatever has been typed and clicked before, after a click on the button comparing DFAs it says whether the texts in the two
areas are texts of DFAs with the same alphabet and language, or that there are errors; the errors are about exactly those texts which are
not legal. Nothing else on the page changes. -/
theorem C70_dfa (env : Site.Env) (hcl : Segmentation env.cl) (es : List Event) (hes : ∀ e ∈ es, e.Valid) (o : Orders) (p : Page)
    (hp : history env es = some p) :
    ∃ q, history env (.click .dfaEq o :: es) = some q ∧ OnlyChanges .dfaEq p q ∧
      Checked env.cl env.plain .dfa c!"DFA 1" c!"DFA 2" (p.value .dfaEq1) (p.value .dfaEq2) (q.label .dfaEq) q.dfaErrors := by
  obtain ⟨q, h1, _, h3, _, h5⟩ := checkDfaEq_run env hcl p (history_fresh hcl hes hp)
  exact ⟨q, by rw [history, hp]; exact h1, h3, h5⟩

/-- **C70** The same for NFAs. -/
theorem C70_nfa (env : Site.Env) (hcl : Segmentation env.cl) (es : List Event) (hes : ∀ e ∈ es, e.Valid) (o : Orders) (p : Page)
    (hp : history env es = some p) :
    ∃ q, history env (.click .nfaEq o :: es) = some q ∧ OnlyChanges .nfaEq p q ∧
      Checked env.cl env.plain .nfa c!"NFA 1" c!"NFA 2" (p.value .nfaEq1) (p.value .nfaEq2) (q.label .nfaEq) q.nfaErrors := by
  obtain ⟨q, h1, _, h3, _, h5⟩ := checkNfaEq_run env hcl p (history_fresh hcl hes hp)
  exact ⟨q, by rw [history, hp]; exact h1, h3, h5⟩

/-- The automata read from two texts. -/
private def bothDfas (t u : Str) : Option (Option Bool) :=
  match (Wasm.loadDfa .init t).1.dfas, (Wasm.loadDfa .init u).1.dfas with
  | [(_, d)], [(_, e)] => some (d.equivalentTo e)
  | _, _ => none

private def bothNfas (t u : Str) : Option (Option Bool) :=
  match (Wasm.loadNfa .init t).1.nfas, (Wasm.loadNfa .init u).1.nfas with
  | [(_, d)], [(_, e)] => some (d.equivalentTo e)
  | _, _ => none

/-- **C70** The examples on the page: as long as their texts are unchanged, whatever else has been done, the DFAs are shown as equivalent and the
NFAs as not equivalent, without errors. -/
theorem C70_examples (env : Site.Env) (hcl : Segmentation env.cl) (es : List Event) (hes : ∀ e ∈ es, e.Valid) (o : Orders) (p : Page)
    (hp : history env es = some p) :
    (p.value .dfaEq1 = start.value .dfaEq1 → p.value .dfaEq2 = start.value .dfaEq2 →
      ∃ q, history env (.click .dfaEq o :: es) = some q ∧ q.label .dfaEq = c!"Equivalent" ∧ q.dfaErrors = []) ∧
    (p.value .nfaEq1 = start.value .nfaEq1 → p.value .nfaEq2 = start.value .nfaEq2 →
      ∃ q, history env (.click .nfaEq o :: es) = some q ∧ q.label .nfaEq = c!"Not equivalent" ∧ q.nfaErrors = []) := by
  have noErrors : ∀ {ty w1 w2 t u label errors}, Checked env.cl env.plain ty w1 w2 t u label errors → Legal env.cl ty t → Legal env.cl ty u →
      errors = [] := by
    intro ty w1 w2 t u label errors hc h1 h2
    obtain ⟨e1, e2, rfl, h3, h4⟩ := hc.errors
    rcases h3 with ⟨_, rfl⟩ | ⟨h3, _⟩
    · rcases h4 with ⟨_, rfl⟩ | ⟨h4, _⟩
      · rfl
      · exact absurd h2 h4
    · exact absurd h1 h3
  constructor
  · intro v1 v2
    obtain ⟨q, h1, _, h3⟩ := C70_dfa env hcl es hes o p hp
    rw [v1, v2] at h3
    have key : bothDfas (start.value .dfaEq1) (start.value .dfaEq2) = some (some true) := by decide +kernel
    unfold bothDfas at key
    rcases load_dfa_cases hcl (start.value .dfaEq1) with ⟨d, a1, a2, _, _, _, a6⟩ | ⟨_, x, _, hx⟩
    · rcases load_dfa_cases hcl (start.value .dfaEq2) with ⟨e, b1, b2, _, _, _, b6⟩ | ⟨_, x, _, hx⟩
      · rw [a6 _ fresh_init, b6 _ fresh_init] at key
        have heq : d.equivalentTo e = some true := Option.some.inj key
        have hsame := (C11_dfa_equivalent_to d e a2.1 b2.1).2.1 heq
        exact ⟨q, h1, h3.same ⟨.dfa d, .dfa e, rfl, rfl, a1, b1, hsame⟩, noErrors h3 ⟨_, rfl, a1⟩ ⟨_, rfl, b1⟩⟩
      · rw [a6 _ fresh_init, hx] at key; cases key
    · rw [hx] at key; cases key
  · intro v1 v2
    obtain ⟨q, h1, _, h3⟩ := C70_nfa env hcl es hes o p hp
    rw [v1, v2] at h3
    have key : bothNfas (start.value .nfaEq1) (start.value .nfaEq2) = some (some false) := by decide +kernel
    unfold bothNfas at key
    rcases load_nfa_cases hcl (start.value .nfaEq1) with ⟨d, a1, a2, _, a5, a6⟩ | ⟨_, x, _, hx⟩
    · rcases load_nfa_cases hcl (start.value .nfaEq2) with ⟨e, b1, b2, _, b5, b6⟩ | ⟨_, x, _, hx⟩
      · rw [a6 _ fresh_init, b6 _ fresh_init] at key
        have heq : d.equivalentTo e = some false := Option.some.inj key
        obtain ⟨b, k1, k2⟩ := C20_nfa_equivalent_to d e a2.1 b2.1
        rw [heq] at k1; cases k1
        refine ⟨q, h1, h3.different ⟨_, rfl, a1⟩ ⟨_, rfl, b1⟩ ?_, noErrors h3 ⟨_, rfl, a1⟩ ⟨_, rfl, b1⟩⟩
        rintro ⟨x, y, hx, hy, tx, ty, s1, s2⟩
        obtain ⟨n, rfl, n1, n2⟩ := a5 x hx tx
        obtain ⟨m, rfl, m1, m2⟩ := b5 y hy ty
        have : SameElems d.alphabet e.alphabet := by
          have s1 : SameElems n.alphabet m.alphabet := s1
          rwa [n1, m1] at s1
        have h5 := k2.2 ⟨this, fun w => (n2 w).symm.trans ((s2 w).trans (m2 w))⟩
        cases h5
      · rw [a6 _ fresh_init, hx] at key; cases key
    · rw [hx] at key; cases key

/-- The DFAs on the page when it is opened are equivalent, the NFAs are not; a changed text leads to an error, and back. -/
example : (history browser [.click .dfaEq orders0]).map (fun p => (p.label .dfaEq, p.dfaErrors)) = some (c!"Equivalent", []) ∧
    (history browser [.click .nfaEq orders0]).map (fun p => (p.label .nfaEq, p.nfaErrors)) = some (c!"Not equivalent", []) ∧
    (history browser [.click .dfaEq orders0, .edit .dfaEq2 c!"a\n-> x y"]).map (fun p => (p.label .dfaEq, p.dfaErrors)) =
      some (c!"Fix errors first!", c!"Error parsing DFA 2: State 'y' does not exist (in transition from state 'x')\n") ∧
    (history browser [.click .dfaEq orders0, .edit .dfaEq2 c!"c b a\r\n-> x x x x", .click .dfaEq orders0, .edit .dfaEq2 c!"a\n-> x y"]).map
      (fun p => (p.label .dfaEq, p.dfaErrors)) = some (c!"Not equivalent", []) := by decide +kernel

/-- **C71** After a click on the button converting an NFA, the result is a text of a DFA with the same alphabet and language (if there is an
element at all), or the error. -/
theorem C71_nfa_to_dfa (env : Site.Env) (hcl : Segmentation env.cl) (es : List Event) (hes : ∀ e ∈ es, e.Valid) (o : Orders) (p : Page)
    (hp : history env es = some p) :
    ∃ q, history env (.click .nfaToDfa o :: es) = some q ∧ OnlyChanges .nfaToDfa p q ∧ q.label .nfaToDfa = p.label .nfaToDfa ∧
      (∀ n, IsTextOf env.cl (p.value .nfaToDfa) (.nfa n) → n.alphabet ≠ [] →
        ∃ d, IsTextOf env.cl (q.value .nfaToDfaOut) (.dfa d) ∧ d.alphabet = n.alphabet ∧ ∀ w, d.Lang w ↔ n.Lang w) ∧
      (¬ Legal env.cl .nfa (p.value .nfaToDfa) → Tells env.cl env.plain .nfa (p.value .nfaToDfa) (q.value .nfaToDfaOut)) := by
  obtain ⟨q, h1, _, h3, h4, _, h5, h6⟩ := nfaToDfa_run env hcl p (history_fresh hcl hes hp)
  refine ⟨q, by rw [history, hp]; exact h1, h3, h4, h5, fun hl => ?_⟩
  obtain ⟨m, hm, hq⟩ := h6 hl
  rw [hq, normalize_self (tells_line hm).2]
  exact hm

/-- **C71** Every message about an illegal text is on a single line. -/
theorem C71_message_line (cl : Str → Nat) (plain : Char → Bool) (ty : Cli.AutomataType) (t m : Str) (h : Tells cl plain ty t m) :
    '\n' ∉ m ∧ '\r' ∉ m := tells_line h

example : (history browser [.click .nfaToDfa orders0]).map (fun p => p.value .nfaToDfaOut) =
    some c!"      a b \n→   0 1 2 \n    1 3 5 \n    2 3 4 \n  * 3 3 5 \n  * 4 3 4 \n  * 5 6 7 \n  * 6 6 7 \n  * 7 7 7 " := by decide +kernel

/-- **C71** An NFA without elements is converted to a text that cannot be read. -/
theorem C71_empty_alphabet_false : ∃ p q, history browser [.edit .nfaToDfa c!"ε\n→ x {}"] = some p ∧ Legal browser.cl .nfa (p.value .nfaToDfa) ∧
    history browser [.click .nfaToDfa orders0, .edit .nfaToDfa c!"ε\n→ x {}"] = some q ∧ ¬ Legal browser.cl .dfa (q.value .nfaToDfaOut) := by
  have h1 : (history browser [.edit .nfaToDfa c!"ε\n→ x {}"]).map (fun p => (Wasm.loadNfa .init (p.value .nfaToDfa)).2) =
      some (.loaded (.ok 1)) := by decide +kernel
  have h2 : (history browser [.click .nfaToDfa orders0, .edit .nfaToDfa c!"ε\n→ x {}"]).map
      (fun p => (Wasm.loadDfa .init (p.value .nfaToDfaOut)).2) = some (.loaded (.error (.parse ⟨c!"→  0 ", .verify⟩))) := by decide +kernel
  obtain ⟨p, hp, h1⟩ := Option.map_eq_some_iff.1 h1
  obtain ⟨q, hq, h2⟩ := Option.map_eq_some_iff.1 h2
  refine ⟨p, q, hp, ?_, hq, ?_⟩
  · rcases load_nfa_cases (cl := browser.cl) cl1_seg (p.value .nfaToDfa) with ⟨n, a1, _⟩ | ⟨_, e, _, a2⟩
    · exact legal_nfa a1
    · rw [a2] at h1
      cases h1
  · rcases load_dfa_cases (cl := browser.cl) cl1_seg (q.value .nfaToDfaOut) with ⟨n, a1, _, _, _, _, a6⟩ | ⟨a1, _⟩
    · rw [a6 _ fresh_init] at h2
      cases h2
    · exact a1

/-- **C71** After a click on the button minimizing a DFA, the result is a text of a minimal DFA with the same alphabet and language;
if the text is not legal, the button shows the error and the old result stays. -/
theorem C71_minimize (env : Site.Env) (hcl : Segmentation env.cl) (es : List Event) (hes : ∀ e ∈ es, e.Valid) (o : Orders) (ho : o.Valid)
    (p : Page) (hp : history env es = some p) :
    ∃ q, history env (.click .minimize o :: es) = some q ∧ OnlyChanges .minimize p q ∧
      (∀ d, IsTextOf env.cl (p.value .minimize) (.dfa d) → q.label .minimize = c!"Minimize!" ∧
        ∃ m, IsTextOf env.cl (q.value .minimizeOut) (.dfa m) ∧ Minimal m ∧ m.alphabet = d.alphabet ∧ ∀ w, m.Lang w ↔ d.Lang w) ∧
      (¬ Legal env.cl .dfa (p.value .minimize) → q.value .minimizeOut = p.value .minimizeOut ∧
        Tells env.cl env.plain .dfa (p.value .minimize) (q.label .minimize)) := by
  obtain ⟨q, h1, _, h3, _, h5, h6⟩ := minimizeDfa_run env hcl o ho p (history_fresh hcl hes hp)
  exact ⟨q, by rw [history, hp]; exact h1, h3, h5, h6⟩

example : (history browser [.click .minimize orders0]).map (fun p => p.value .minimizeOut) =
    some c!"      a b c \n→ * x z x y \n  * y y y y \n    z y z z " ∧
    (history browser [.click .minimize orders0, .edit .minimize c!"a\n", .click .minimize orders0]).map
      (fun p => (p.label .minimize, p.value .minimizeOut)) =
    some (c!"Error parsing DFA: Error { input: \"\", code: TakeTill1 }", c!"      a b c \n→ * x z x y \n  * y y y y \n    z y z z ") := by decide +kernel

/-- **C71** After a click on the button converting an expression, the result is a text of an NFA with the language of the expression, if
its elements can be written in tables. -/
theorem C71_regex (env : Site.Env) (hcl : Segmentation env.cl) (es : List Event) (hes : ∀ e ∈ es, e.Valid) (o : Orders)
    (p : Page) (hp : history env es = some p) :
    ∃ q, history env (.click .regexToNfa o :: es) = some q ∧ OnlyChanges .regexToNfa p q ∧
      (∀ r, IsTextOf env.cl (p.value .regex) (.regex r) → q.label .regexToNfa = c!"Convert!" ∧ ((∀ e ∈ r.graphemes, Name e) →
        ∃ n, IsTextOf env.cl (q.value .regexOut) (.nfa n) ∧ (Automata.regex r).HasAlphabet n.alphabet ∧ ∀ w, n.Lang w ↔ Matches r w)) ∧
      (¬ Legal env.cl .regex (p.value .regex) → q.value .regexOut = p.value .regexOut ∧
        Tells env.cl env.plain .regex (p.value .regex) (q.label .regexToNfa)) := by
  obtain ⟨q, h1, _, h3, _, h5, h6⟩ := regexToNfa_run env hcl p (history_fresh hcl hes hp)
  exact ⟨q, by rw [history, hp]; exact h1, h3, h5, h6⟩

example : (history browser [.click .regexToNfa orders0, .edit .regex c!"ab"]).map (fun p => p.value .regexOut) =
    some c!"      ε   a   b \n  * 0 {}  {}  {} \n→   1 {2} {}  {} \n    2 {4} {}  {} \n    3 {6} {}  {} \n    4 {}  {3} {} \n    5 {0} {}  {} \n    6 {}  {}  {5} " := by
  decide +kernel

/-- **C72** Copying: after minimizing a legal DFA, pasting the text and the result into the areas of the comparison gives "Equivalent". -/
theorem C72_minimize_check (env : Site.Env) (hcl : Segmentation env.cl) (es : List Event) (hes : ∀ e ∈ es, e.Valid) (o o' : Orders)
    (ho : o.Valid) (p : Page) (hp : history env es = some p) (hl : Legal env.cl .dfa (p.value .minimize)) :
    ∃ q r, history env (.click .minimize o :: es) = some q ∧
      history env (.click .dfaEq o' :: .edit .dfaEq2 (q.value .minimizeOut) :: .edit .dfaEq1 (p.value .minimize) :: .click .minimize o :: es) =
        some r ∧ r.label .dfaEq = c!"Equivalent" := by
  obtain ⟨q, h1, h2, h3, _⟩ := C71_minimize env hcl es hes o ho p hp
  have hes1 : ∀ e ∈ Event.click .minimize o :: es, e.Valid := by
    intro e he
    rcases List.mem_cons.1 he with rfl | he
    · exact ho
    · exact hes e he
  obtain ⟨a, ha, hta⟩ := hl
  cases a with
  | nfa => cases ha
  | regex => cases ha
  | dfa d =>
    obtain ⟨_, m, g1, g2, g3, g4⟩ := h3 d hta
    have hes2 : ∀ e ∈ Event.edit .dfaEq2 (q.value .minimizeOut) :: .edit .dfaEq1 (p.value .minimize) :: .click .minimize o :: es, e.Valid := by
      intro e he
      rcases List.mem_cons.1 he with rfl | he
      · trivial
      rcases List.mem_cons.1 he with rfl | he
      · trivial
      exact hes1 e he
    have hq : history env (.edit .dfaEq2 (q.value .minimizeOut) :: .edit .dfaEq1 (p.value .minimize) :: .click .minimize o :: es) =
        some ((q.setValue .dfaEq1 (p.value .minimize)).setValue .dfaEq2 (q.value .minimizeOut)) := by
      rw [history, history, h1]
      rfl
    obtain ⟨r, h4, _, h5⟩ := C70_dfa env hcl _ hes2 o' _ hq
    refine ⟨q, r, h1, h4, h5.same ?_⟩
    refine ⟨.dfa d, .dfa m, rfl, rfl, ?_, ?_, ?_⟩
    · show IsTextOf env.cl (normalize (p.value .minimize)) _
      rw [normalize_self (history_cr hcl hes hp _)]
      exact hta
    · show IsTextOf env.cl (normalize (q.value .minimizeOut)) _
      rw [normalize_self (history_cr hcl hes1 h1 _)]
      exact g1
    · refine ⟨?_, fun w => (g4 w).symm⟩
      intro e
      show e ∈ d.alphabet ↔ e ∈ m.alphabet
      rw [g3]

/-- **C72** From an expression to a minimal DFA: converting it, pasting the result into the area of the next button, converting it, pasting
the result, and minimizing it gives a text of a minimal DFA with the language of the expression. -/
theorem C72_regex_minimal (env : Site.Env) (hcl : Segmentation env.cl) (es : List Event) (hes : ∀ e ∈ es, e.Valid) (o : Orders)
    (ho : o.Valid) (p : Page) (hp : history env es = some p) (r : RegexTree) (hr : IsTextOf env.cl (p.value .regex) (.regex r))
    (hnames : ∀ e ∈ r.graphemes, Name e) (hne : r.graphemes ≠ []) :
    ∃ p1 p2 p3, history env (.click .regexToNfa o :: es) = some p1 ∧
      history env (.click .nfaToDfa o :: .edit .nfaToDfa (p1.value .regexOut) :: .click .regexToNfa o :: es) = some p2 ∧
      history env (.click .minimize o :: .edit .minimize (p2.value .nfaToDfaOut) :: .click .nfaToDfa o ::
        .edit .nfaToDfa (p1.value .regexOut) :: .click .regexToNfa o :: es) = some p3 ∧
      ∃ m, IsTextOf env.cl (p3.value .minimizeOut) (.dfa m) ∧ Minimal m ∧ (Automata.regex r).HasAlphabet m.alphabet ∧
        ∀ w, m.Lang w ↔ Matches r w := by
  have valid : ∀ (e : Event) (l : List Event), e.Valid → (∀ e ∈ l, e.Valid) → ∀ x ∈ e :: l, x.Valid := by
    intro e l h1 h2 x hx
    rcases List.mem_cons.1 hx with rfl | hx
    · exact h1
    · exact h2 x hx
  obtain ⟨p1, a1, _, a2, _⟩ := C71_regex env hcl es hes o p hp
  obtain ⟨n, a3, a4, a5⟩ := (a2 r hr).2 hnames
  have v1 := valid (.click .regexToNfa o) es ho hes
  have v2 := valid (.edit .nfaToDfa (p1.value .regexOut)) _ trivial v1
  have e1 : history env (.edit .nfaToDfa (p1.value .regexOut) :: .click .regexToNfa o :: es) =
      some (p1.setValue .nfaToDfa (p1.value .regexOut)) := by rw [history, a1]; rfl
  obtain ⟨p2, b1, _, _, b2, _⟩ := C71_nfa_to_dfa env hcl _ v2 o _ e1
  have hn : n.alphabet ≠ [] := by
    intro h
    rcases hg : r.graphemes with _ | ⟨g, l⟩
    · exact hne hg
    · have := (a4.2.1 g).2 (by rw [hg]; exact List.mem_cons_self)
      rw [h] at this
      cases this
  obtain ⟨d, b3, b4, b5⟩ := b2 n (by
    show IsTextOf env.cl (normalize (p1.value .regexOut)) _
    rw [normalize_self (history_cr hcl v1 a1 _)]
    exact a3) hn
  have v3 := valid (.click .nfaToDfa o) _ ho v2
  have v4 := valid (.edit .minimize (p2.value .nfaToDfaOut)) _ trivial v3
  have e2 : history env (.edit .minimize (p2.value .nfaToDfaOut) :: .click .nfaToDfa o :: .edit .nfaToDfa (p1.value .regexOut) ::
      .click .regexToNfa o :: es) = some (p2.setValue .minimize (p2.value .nfaToDfaOut)) := by rw [history, b1]; rfl
  obtain ⟨p3, c1, _, c2, _⟩ := C71_minimize env hcl _ v4 o ho _ e2
  obtain ⟨_, m, c3, c4, c5, c6⟩ := c2 d (by
    show IsTextOf env.cl (normalize (p2.value .nfaToDfaOut)) _
    rw [normalize_self (history_cr hcl v3 b1 _)]
    exact b3)
  refine ⟨p1, p2, p3, a1, b1, c1, m, c3, c4, ?_, fun w => (c6 w).trans ((b5 w).trans (a5 w))⟩
  rw [c5, b4]
  exact a4

/-- The expression on the page when it is opened, by hand. -/
example : (history browser [.click .regexToNfa orders0]).bind (fun p1 =>
    (history browser [.click .nfaToDfa orders0, .edit .nfaToDfa (p1.value .regexOut), .click .regexToNfa orders0]).bind (fun p2 =>
      (history browser [.click .minimize orders0, .edit .minimize (p2.value .nfaToDfaOut), .click .nfaToDfa orders0,
        .edit .nfaToDfa (p1.value .regexOut), .click .regexToNfa orders0]).map (fun p3 => (p3.value .minimizeOut)))) =
    some c!"      a b c \n→   0 1 2 2 \n    1 2 3 2 \n    2 2 2 2 \n    3 1 2 5 \n  * 5 2 2 2 " := by decide +kernel

/-- **C73** How many objects are kept in the wasm module: a click on a button adds those that its function does not delete. -/
theorem C73_leaks (env : Site.Env) (hcl : Segmentation env.cl) (es : List Event) (hes : ∀ e ∈ es, e.Valid) (p : Page)
    (hp : history env es = some p) :
    (∀ b o, o.Valid → ∃ q, history env (.click b o :: es) = some q ∧ q.objects = p.objects + leaked env.cl p b) ∧
    ∀ a t, ∃ q, history env (.edit a t :: es) = some q ∧ q.objects = p.objects := by
  constructor
  · intro b o ho
    obtain ⟨q, h1, _, _, h2⟩ := click_run env hcl o ho p (history_fresh hcl hes hp) b
    exact ⟨q, by rw [history, hp]; exact h1, h2⟩
  · intro a t
    refine ⟨if a.readonly then p else p.setValue a t, by rw [history, hp]; rfl, ?_⟩
    split <;> rfl

/-- **C73** (partial) Without clicks on "Minimize!", "Visualize!" and the conversion of expressions, and if all comparisons are of legal
texts, nothing is kept. -/
theorem C73_clean_partial (env : Site.Env) (hcl : Segmentation env.cl) (es : List Event) (hes : ∀ e ∈ es, e.Valid)
    (hb : ∀ b o pre, (.click b o :: pre) <:+ es → ∀ p, history env pre = some p → b = .nfaToDfa ∨
      b = .dfaEq ∧ Legal env.cl .dfa (p.value .dfaEq1) ∧ Legal env.cl .dfa (p.value .dfaEq2) ∨
      b = .nfaEq ∧ Legal env.cl .nfa (p.value .nfaEq1) ∧ Legal env.cl .nfa (p.value .nfaEq2)) :
    ∃ p, history env es = some p ∧ p.objects = 0 := by
  induction es with
  | nil => exact ⟨_, rfl, rfl⟩
  | cons e es ih =>
    have hes' : ∀ e ∈ es, e.Valid := fun x hx => hes x (List.mem_cons_of_mem _ hx)
    obtain ⟨p, h1, h2⟩ := ih hes' (fun b o pre hpre => hb b o pre (hpre.trans (List.suffix_cons _ _)))
    obtain ⟨h3, h4⟩ := C73_leaks env hcl es hes' p h1
    cases e with
    | edit a t =>
      obtain ⟨q, h5, h6⟩ := h4 a t
      exact ⟨q, h5, h6.trans h2⟩
    | click b o =>
      obtain ⟨q, h5, h6⟩ := h3 b o (hes _ List.mem_cons_self)
      refine ⟨q, h5, ?_⟩
      rw [h6, h2]
      rcases hb b o es List.suffix_rfl p h1 with rfl | ⟨rfl, h7, h8⟩ | ⟨rfl, h7, h8⟩
      · rfl
      · exact (Nat.zero_add _).trans (if_pos (iff_of_true h7 h8))
      · exact (Nat.zero_add _).trans (if_pos (iff_of_true h7 h8))

/-- **C73** But the memory used by the page grows without bound: every further click on "Minimize!" keeps one more DFA, which no button
deletes. -/
theorem C73_growth_false (env : Site.Env) (hcl : Segmentation env.cl) (o : Orders) (ho : o.Valid) (n : Nat) :
    ∃ p, history env (List.replicate n (.click .minimize o)) = some p ∧ p.objects = n := by
  have hlegal : Legal env.cl .dfa (start.value .minimize) := by
    rcases load_dfa_cases hcl (start.value .minimize) with ⟨d, a1, _⟩ | ⟨_, e, _, a2⟩
    · exact legal_dfa a1
    · have h := a2 .init
      have h' : (Wasm.loadDfa .init (start.value .minimize)).2 = .loaded (.ok 1) := by decide +kernel
      rw [h] at h'
      cases h'
  have key : ∃ p, history env (List.replicate n (.click .minimize o)) = some p ∧ p.objects = n ∧
      p.value .minimize = start.value .minimize := by
    induction n with
    | zero => exact ⟨_, rfl, rfl, rfl⟩
    | succ n ih =>
      obtain ⟨p, h1, h2, h3⟩ := ih
      have hes : ∀ e ∈ List.replicate n (Event.click .minimize o), e.Valid := by
        intro e he
        rw [List.eq_of_mem_replicate he]
        exact ho
      obtain ⟨q, h4, _, h5, h6⟩ := click_run env hcl o ho p (history_fresh hcl hes h1) .minimize
      refine ⟨q, by rw [List.replicate_succ, history, h1]; exact h4, ?_, ?_⟩
      · have : leaked env.cl p .minimize = 1 := if_pos (by rw [h3]; exact hlegal)
        rw [h6, h2, this]
      · rw [h5.values .minimize (by simp) (by simp) (by simp), h3]
  obtain ⟨p, h1, h2, _⟩ := key
  exact ⟨p, h1, h2⟩

example : (history browser [.click .nfaToDfa orders0, .click .dfaEq orders0]).map Page.objects = some 0 ∧
    (history browser [.click .dfaEq orders0, .edit .dfaEq2 c!"a", .click .minimize orders0, .click .regexToNfa orders0]).map
      Page.objects = some 3 := by decide +kernel

/-- **C74** After a click on the button drawing an NFA, the drawing of the NFA (C66) can be seen on the canvas, in the colours of C68 (except
that the last line is painted again, see there); if the text is not legal, the canvas stays as it is and the button shows the error.
Drawings are added to what was painted before. -/
theorem C74_visualize_partial (env : Site.Env) (hcl : Segmentation env.cl) (es : List Event) (hes : ∀ e ∈ es, e.Valid) (o : Orders)
    (ho : o.Valid) (p : Page) (hp : history env es = some p) :
    ∃ q, history env (.click .visualize o :: es) = some q ∧ OnlyChanges .visualize p q ∧
      (Legal env.cl .nfa (p.value .visualize) → q.label .visualize = c!"Visualize!" ∧
        ∃ n ops ps again it, IsTextOf env.cl (p.value .visualize) (.nfa n) ∧ n.WF ∧ Draw.drawNfa Draw.Options.default o.draw n = some ops ∧
          q.canvas.painted = p.canvas.painted ++ ps ++ [again] ∧ List.Forall₂ Draw.Canvas.Visible ps (Draw.items (0, 0, 0) ops) ∧
          ((Draw.items (0, 0, 0) ops).filter Draw.Item.isOutline).getLast? = some it ∧
          Draw.Canvas.Visible again (it.recolor Draw.Options.default.textColor)) ∧
      (¬ Legal env.cl .nfa (p.value .visualize) → q.canvas = p.canvas ∧ Tells env.cl env.plain .nfa (p.value .visualize) (q.label .visualize)) := by
  obtain ⟨q, h1, _, h3, _, h5, h6⟩ := visualizeNfa_run env hcl o ho p (history_fresh hcl hes hp)
  exact ⟨q, by rw [history, hp]; exact h1, h3, h5, h6⟩

/-- **C74** So the canvas does not show the NFA in the text area: after drawing one and then another, the name of the state of the first one
can still be seen. -/
theorem C74_overdrawn_false : ∃ p, history browser [.click .visualize orders0, .edit .visualize c!"ε a\n→ new {} {new}",
      .click .visualize orders0, .edit .visualize c!"ε a\n→ old {} {old}"] = some p ∧
    p.value .visualize = c!"ε a\n→ new {} {new}" ∧
    ∃ x ∈ p.canvas.painted, ∃ pos color, Draw.Canvas.Visible x (.text pos c!"old" color) := by
  have h : (history browser [.click .visualize orders0, .edit .visualize c!"ε a\n→ new {} {new}",
      .click .visualize orders0, .edit .visualize c!"ε a\n→ old {} {old}"]).map (fun p => (p.value .visualize,
        p.canvas.painted.any (fun x => match x with
          | .text _ s _ a b => s == c!"old" && a == c!"center" && b == c!"middle"
          | _ => false))) = some (c!"ε a\n→ new {} {new}", true) := by decide +kernel
  obtain ⟨p, h1, h2⟩ := Option.map_eq_some_iff.1 h
  rw [Prod.mk.injEq] at h2
  obtain ⟨x, hx, h3⟩ := List.any_eq_true.1 h2.2
  refine ⟨p, h1, h2.1, x, hx, ?_⟩
  cases x with
  | stroke path w c => cases h3
  | text pos s c a b =>
    simp only [Bool.and_eq_true, beq_iff_eq] at h3
    obtain ⟨⟨rfl, rfl⟩, rfl⟩ := h3
    exact ⟨pos, c, .text⟩

/-- **C75** What a button answers depends on the texts it reads (and on the orders chosen during the click), not on what was done on the
page before. -/
theorem C75_answers (env : Site.Env) (hcl : Segmentation env.cl) (es fs : List Event) (hes : ∀ e ∈ es, e.Valid) (hfs : ∀ e ∈ fs, e.Valid)
    (b : Button) (o : Orders) (ho : o.Valid) (p p' : Page) (hp : history env es = some p) (hp' : history env fs = some p')
    (hsame : ∀ a, Reads b a → p.value a = p'.value a) :
    ∃ q q', history env (.click b o :: es) = some q ∧ history env (.click b o :: fs) = some q' ∧ SameAnswer env.cl b q q' := by
  have hf := history_fresh hcl hes hp
  have hf' := history_fresh hcl hfs hp'
  have run : ∀ q q', click env o p b = some q → click env o p' b = some q' → history env (.click b o :: es) = some q ∧
      history env (.click b o :: fs) = some q' := by
    intro q q' h1 h2
    exact ⟨by rw [history, hp]; exact h1, by rw [history, hp']; exact h2⟩
  cases b with
  | dfaEq =>
    obtain ⟨l, e, h⟩ := checkDfaEq_det env hcl (p.value .dfaEq1) (p.value .dfaEq2)
    obtain ⟨q, h1, h2, h3⟩ := h p hf rfl rfl
    obtain ⟨q', h1', h2', h3'⟩ := h p' hf' (hsame _ (.inl rfl)).symm (hsame _ (.inr rfl)).symm
    exact ⟨q, q', (run _ _ h1 h1').1, (run _ _ h1 h1').2, fun _ => h2.trans h2'.symm, fun _ => h3.trans h3'.symm, by simp, by simp, by simp,
      by simp⟩
  | nfaEq =>
    obtain ⟨l, e, h⟩ := checkNfaEq_det env hcl (p.value .nfaEq1) (p.value .nfaEq2)
    obtain ⟨q, h1, h2, h3⟩ := h p hf rfl rfl
    obtain ⟨q', h1', h2', h3'⟩ := h p' hf' (hsame _ (.inl rfl)).symm (hsame _ (.inr rfl)).symm
    exact ⟨q, q', (run _ _ h1 h1').1, (run _ _ h1 h1').2, fun _ => h2.trans h2'.symm, by simp, fun _ => h3.trans h3'.symm, by simp, by simp,
      by simp⟩
  | nfaToDfa =>
    obtain ⟨u, h⟩ := nfaToDfa_det env hcl (p.value .nfaToDfa)
    obtain ⟨q, h1, h2⟩ := h p hf rfl
    obtain ⟨q', h1', h2'⟩ := h p' hf' (hsame _ rfl).symm
    exact ⟨q, q', (run _ _ h1 h1').1, (run _ _ h1 h1').2, by simp, by simp, by simp, fun _ => h2.trans h2'.symm, by simp, by simp⟩
  | minimize =>
    obtain ⟨l, u, h⟩ := minimizeDfa_det env hcl o ho (p.value .minimize)
    obtain ⟨q, h1, h2, h3⟩ := h p hf rfl
    obtain ⟨q', h1', h2', h3'⟩ := h p' hf' (hsame _ rfl).symm
    obtain ⟨q0, g1, _, g3, _⟩ := click_run env hcl o ho p hf .minimize
    have : q0 = q := Option.some.inj (g1.symm.trans h1)
    subst this
    refine ⟨q0, q', (run _ _ h1 h1').1, (run _ _ h1 h1').2, fun _ => h2.trans h2'.symm, by simp, by simp, by simp, ?_, by simp⟩
    intro _ hl
    rw [g3.values .minimize (by simp) (by simp) (by simp)] at hl
    exact (h3 hl).trans (h3' hl).symm
  | regexToNfa =>
    obtain ⟨l, u, h⟩ := regexToNfa_det env hcl (p.value .regex)
    obtain ⟨q, h1, h2, h3⟩ := h p hf rfl
    obtain ⟨q', h1', h2', h3'⟩ := h p' hf' (hsame _ rfl).symm
    obtain ⟨q0, g1, _, g3, _⟩ := click_run env hcl o ho p hf .regexToNfa
    have : q0 = q := Option.some.inj (g1.symm.trans h1)
    subst this
    refine ⟨q0, q', (run _ _ h1 h1').1, (run _ _ h1 h1').2, fun _ => h2.trans h2'.symm, by simp, by simp, by simp, by simp, ?_⟩
    intro _ hl
    rw [g3.values .regex (by simp) (by simp) (by simp)] at hl
    exact (h3 hl).trans (h3' hl).symm
  | visualize =>
    obtain ⟨l, h⟩ := visualizeNfa_det env hcl o ho (p.value .visualize)
    obtain ⟨q, h1, h2⟩ := h p hf rfl
    obtain ⟨q', h1', h2'⟩ := h p' hf' (hsame _ rfl).symm
    exact ⟨q, q', (run _ _ h1 h1').1, (run _ _ h1 h1').2, fun _ => h2.trans h2'.symm, by simp, by simp, by simp, by simp, by simp⟩

/-- **C75** Outputs cannot be edited and inputs are never overwritten: the text of an area changes only by an edit of an input, or, for one of the
three outputs, by a click on its own button. -/
theorem C75_areas (env : Site.Env) (hcl : Segmentation env.cl) (e : Event) (es : List Event) (hes : ∀ x ∈ e :: es, x.Valid) (p q : Page)
    (hp : history env es = some p) (hq : history env (e :: es) = some q) (a : Area) (hne : q.value a ≠ p.value a) :
    match a with
    | .nfaToDfaOut => ∃ o, e = .click .nfaToDfa o
    | .minimizeOut => ∃ o, e = .click .minimize o
    | .regexOut => ∃ o, e = .click .regexToNfa o
    | input => ∃ t, e = .edit input t := by
  rw [history, hp] at hq
  cases e with
  | edit b t =>
    have hq : (if b.readonly then p else p.setValue b t) = q := Option.some.inj hq
    subst hq
    by_cases hb : a = b
    · subst hb
      cases a <;> first | exact ⟨_, rfl⟩ | exact absurd rfl hne
    · exfalso
      apply hne
      split
      · rfl
      · exact if_neg hb
  | click b o =>
    obtain ⟨q', h1, _, h2, _⟩ := click_run env hcl o (hes _ List.mem_cons_self) p
      (history_fresh hcl (fun x hx => hes x (List.mem_cons_of_mem _ hx)) hp) b
    have : q' = q := Option.some.inj (h1.symm.trans hq)
    subst this
    by_contra hc
    apply hne
    apply h2.values <;> rintro rfl rfl <;> exact hc ⟨_, rfl⟩

/-- **C75** Editing an input changes its text and nothing else; line ends of the text become line feeds. -/
theorem C75_edit (env : Site.Env) (es : List Event) (p : Page) (hp : history env es = some p) (a : Area)
    (ha : a ≠ .nfaToDfaOut ∧ a ≠ .minimizeOut ∧ a ≠ .regexOut) (t : Str) :
    ∃ q, history env (.edit a t :: es) = some q ∧ ('\r' ∉ t → q.value a = t) ∧ (∀ b, b ≠ a → q.value b = p.value b) ∧ q.label = p.label ∧
      q.dfaErrors = p.dfaErrors ∧ q.nfaErrors = p.nfaErrors ∧ q.canvas = p.canvas := by
  have hr : a.readonly = false := by
    obtain ⟨h1, h2, h3⟩ := ha
    cases a <;> first | rfl | exact absurd rfl h1 | exact absurd rfl h2 | exact absurd rfl h3
  refine ⟨p.setValue a t, ?_, ?_, fun b hb => if_neg hb, rfl, rfl, rfl, rfl⟩
  · rw [history, hp]
    show some (if a.readonly then p else p.setValue a t) = _
    rw [hr]
    rfl
  · intro ht
    exact (if_pos rfl).trans (normalize_self ht)

example : (history browser [.edit .regexOut c!"mine", .edit .regex c!"yours"]).map (fun p => (p.value .regexOut, p.value .regex)) =
    some (c!"Convert a Regex and the\nresult will appear here\n    ", c!"yours") := by decide +kernel

/-- **C75** An old result stays beside a text that it does not belong to: after an error, the output of the earlier text is still shown. -/
theorem C75_stale_false : ∃ p, history browser [.click .minimize orders0, .edit .minimize c!"a", .click .minimize orders0] = some p ∧
    ¬ Legal browser.cl .dfa (p.value .minimize) ∧ p.value .minimizeOut = c!"      a b c \n→ * x z x y \n  * y y y y \n    z y z z " := by
  have h : (history browser [.click .minimize orders0, .edit .minimize c!"a", .click .minimize orders0]).map
      (fun p => ((Wasm.loadDfa .init (p.value .minimize)).2, p.value .minimizeOut)) =
      some (.loaded (.error (.parse ⟨[], .crLf⟩)), c!"      a b c \n→ * x z x y \n  * y y y y \n    z y z z ") := by decide +kernel
  obtain ⟨p, hp, h⟩ := Option.map_eq_some_iff.1 h
  rw [Prod.mk.injEq] at h
  refine ⟨p, hp, ?_, h.2⟩
  rcases load_dfa_cases (cl := browser.cl) cl1_seg (p.value .minimize) with ⟨n, a1, _, _, _, _, a6⟩ | ⟨a1, _⟩
  · rw [a6 _ fresh_init] at h
    cases h.1
  · exact a1

/-- Two histories for C75: after both, the same text is minimized. -/
example : (history browser [.click .minimize orders0, .edit .minimize c!"a\n→ x x\ny x", .click .visualize orders0]).map
      (fun p => (p.label .minimize, p.value .minimizeOut)) =
    (history browser [.click .minimize orders0, .edit .minimize c!"a\r\n→ x x\ry x", .click .dfaEq orders0, .edit .dfaEq1 [],
      .click .minimize orders0]).map (fun p => (p.label .minimize, p.value .minimizeOut)) := by decide +kernel

/-! ## The theorems for the page as it is opened -/

/-- The texts for the buttons "Minimize!" and "Check!" can be read. -/
theorem start_legal : Legal browser.cl .dfa (start.value .minimize) ∧ Legal browser.cl .dfa (start.value .dfaEq1) ∧
    Legal browser.cl .dfa (start.value .dfaEq2) ∧ Legal browser.cl .nfa (start.value .nfaToDfa) := by
  have hd : ∀ t, (Wasm.loadDfa .init t).2 = .loaded (.ok 1) → Legal browser.cl .dfa t := by
    intro t ht
    rcases load_dfa_cases cl1_seg t with ⟨d, a1, _⟩ | ⟨_, e, _, a2⟩
    · exact legal_dfa a1
    · rw [a2 .init] at ht
      cases ht
  have hn : ∀ t, (Wasm.loadNfa .init t).2 = .loaded (.ok 1) → Legal browser.cl .nfa t := by
    intro t ht
    rcases load_nfa_cases cl1_seg t with ⟨d, a1, _⟩ | ⟨_, e, _, a2⟩
    · exact legal_nfa a1
    · rw [a2 .init] at ht
      cases ht
  exact ⟨hd _ (by decide +kernel), hd _ (by decide +kernel), hd _ (by decide +kernel), hn _ (by decide +kernel)⟩

example := C70_dfa browser cl1_seg [] nofun orders0 start rfl
example := C71_nfa_to_dfa browser cl1_seg [] nofun orders0 start rfl
example := C72_minimize_check browser cl1_seg [] nofun orders0 orders0 orders0_valid start rfl start_legal.1
example : ∃ p, history browser [.click .dfaEq orders0, .edit .regex c!"a", .click .nfaToDfa orders0] = some p ∧ p.objects = 0 :=
  C73_clean_partial browser cl1_seg [.click .dfaEq orders0, .edit .regex c!"a", .click .nfaToDfa orders0] (by
    intro e he
    simp only [List.mem_cons, List.not_mem_nil, or_false] at he
    rcases he with rfl | rfl | rfl
    · exact orders0_valid
    · trivial
    · exact orders0_valid) (by
    intro b o pre hpre p hp
    obtain ⟨l, hl⟩ := hpre
    rcases l with _ | ⟨_, _ | ⟨_, _ | ⟨_, _ | ⟨_, l⟩⟩⟩⟩
    · injection hl with h1 h2
      cases h1
      subst h2
      have h3 : (history browser [.edit .regex c!"a", .click .nfaToDfa orders0]).map (fun p => (p.value .dfaEq1, p.value .dfaEq2)) =
          some (start.value .dfaEq1, start.value .dfaEq2) := by decide +kernel
      rw [hp] at h3
      injection h3 with h3
      injection h3 with h3 h4
      exact .inr (.inl ⟨rfl, h3 ▸ start_legal.2.1, h4 ▸ start_legal.2.2.1⟩)
    · injection hl with _ h2
      injection h2 with h1 h2
      cases h1
    · injection hl with _ h2
      injection h2 with _ h2
      injection h2 with h1 h2
      cases h1
      exact .inl rfl
    · simp at hl
    · simp at hl)
example := C74_visualize_partial browser cl1_seg [] nofun orders0 orders0_valid start rfl
example : ∃ q q', history browser [.click .minimize orders0] = some q ∧
    history browser [.click .minimize orders0, .edit .regex c!"a", .click .visualize orders0] = some q' ∧
    SameAnswer browser.cl .minimize q q' := by
  have hv : ∀ e ∈ [Event.edit .regex c!"a", .click .visualize orders0], e.Valid := by
    intro e he
    simp only [List.mem_cons, List.not_mem_nil, or_false] at he
    rcases he with rfl | rfl
    · trivial
    · exact orders0_valid
  obtain ⟨p', hp'⟩ := C70_total browser cl1_seg [.edit .regex c!"a", .click .visualize orders0] hv
  refine C75_answers browser cl1_seg [] _ nofun hv .minimize orders0 orders0_valid start p' rfl hp' ?_
  intro a ha
  have h3 : (history browser [.edit .regex c!"a", .click .visualize orders0]).map (fun p => p.value .minimize) = some (start.value .minimize) := by
    decide +kernel
  rw [hp'] at h3
  have h5 : p'.value .minimize = start.value .minimize := Option.some.inj h3
  obtain rfl : a = .minimize := ha
  exact h5.symm

/-! ## Instances of the theorems of this file -/

example := C70_nfa browser cl1_seg [] nofun orders0 start rfl
example := C73_leaks browser cl1_seg [] nofun start rfl

end Dandy
