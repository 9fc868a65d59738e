import Verif.Proofs.Cli
import Verif.Proofs.CliPath
import Verif.Props.RegexParser
import Verif.Props.ParseErrors
import Verif.Props.Samples
/-! # The command line tool: C47–C52, C61–C63 -/

namespace Dandy
open Cli Cli.Automata Samples

/-! ## Conversions -/

/-- **C47** `into_dfa` (and `into_dfa_automata`): a valid DFA with the same alphabet and language; the flag tells whether the
automaton was not a DFA before; a DFA is returned unchanged. -/
theorem C47_into_dfa (a : Automata) (ha : a.Valid) :
    ∃ d c, a.intoDfa = some (d, c) ∧ a.intoDfaAutomata = some (.dfa d, c) ∧ d.WF ∧ a.HasAlphabet d.alphabet ∧
      (∀ w, d.Lang w ↔ a.Lang w) ∧ (c = true ↔ a.getType ≠ .dfa) ∧ ∀ d', a = .dfa d' → d = d' := by
  obtain ⟨d, c, g1, g2, g3, _, g5, g6⟩ := intoDfa_spec ha
  refine ⟨d, c, g1, by simp [intoDfaAutomata, g1], g2, g3, g5, g6, ?_⟩
  rintro d' rfl
  simp only [intoDfa, Option.some.injEq, Prod.mk.injEq] at g1
  exact g1.1.symm

/-- **C47** `into_nfa` (and `into_to_nfa_automata`): a valid NFA with the same alphabet and language; the flag tells whether the
automaton was not an NFA before; an NFA is returned unchanged. -/
theorem C47_into_nfa (a : Automata) (ha : a.Valid) :
    ∃ n c, a.intoNfa = (n, c) ∧ a.intoNfaAutomata = (.nfa n, c) ∧ n.WF ∧ a.HasAlphabet n.alphabet ∧
      (∀ w, n.Lang w ↔ a.Lang w) ∧ (c = true ↔ a.getType ≠ .nfa) ∧ ∀ n', a = .nfa n' → n = n' := by
  obtain ⟨g1, g2, _, g4, g5⟩ := intoNfa_spec ha
  refine ⟨a.intoNfa.1, a.intoNfa.2, rfl, rfl, g1, g2, g4, g5, ?_⟩
  rintro n' rfl
  rfl

/-- **C47** `into_minimized_dfa`: a minimal DFA with the same alphabet and language; the flag tells whether the automaton was
not already a minimal DFA. -/
theorem C47_into_minimized_dfa (o : MinOrd) (ho : o.Valid) (a : Automata) (ha : a.Valid) :
    ∃ m c, a.intoMinimizedDfa o = some (m, c) ∧ a.intoMinimizedDfaAutomata o = some (.dfa m, c) ∧ m.WF ∧
      a.HasAlphabet m.alphabet ∧ (∀ w, m.Lang w ↔ a.Lang w) ∧ Minimal m ∧ (c = true ↔ ¬ ∃ d, a = .dfa d ∧ Minimal d) := by
  obtain ⟨m, c, g1, g2, g3, _, g5, g6, g7⟩ := intoMinimizedDfa_spec ho ha
  exact ⟨m, c, g1, by simp [intoMinimizedDfaAutomata, g1], g2, g3, g5, g6, g7⟩

/-- **C47** `into_minimized_dfa_if_not_dfa`: a DFA with the same alphabet and language: the automaton itself if it is a DFA, a
minimal one otherwise; the flag tells which. -/
theorem C47_into_minimized_dfa_if_not_dfa (o : MinOrd) (ho : o.Valid) (a : Automata) (ha : a.Valid) :
    ∃ d c, a.intoMinimizedDfaIfNotDfa o = some (d, c) ∧ d.WF ∧ a.HasAlphabet d.alphabet ∧ (∀ w, d.Lang w ↔ a.Lang w) ∧
      (c = true ↔ a.getType ≠ .dfa) ∧ (c = true → Minimal d) ∧ ∀ d', a = .dfa d' → d = d' := by
  obtain ⟨d, c, g1, _, g2, g3, g5, g6, g7⟩ := C47_into_dfa a ha
  obtain ⟨x, h1, h2, h3, h4, h5⟩ := ho.minimize g2
  cases c with
  | false =>
    exact ⟨d, false, by simp [intoMinimizedDfaIfNotDfa, g1], g2, g3, g5, g6, by simp, g7⟩
  | true =>
    refine ⟨x, true, by simp [intoMinimizedDfaIfNotDfa, g1, h1], h2, h3 ▸ g3, fun w => (h4 w).trans (g5 w), g6, fun _ => h5, ?_⟩
    rintro d' rfl
    simp [getType] at g6

/-- **C47** `convert_to`: fails exactly for converting a DFA or NFA to a regular expression; otherwise the result has the
requested type, the same alphabet and language, the flag tells whether the types differ, and an automaton which already has the
type is returned unchanged. -/
theorem C47_convert_to (a : Automata) (ha : a.Valid) (ty : AutomataType) :
    (a.convertTo ty = some none ↔ ty = .regex ∧ a.getType ≠ .regex) ∧
    (¬ (ty = .regex ∧ a.getType ≠ .regex) → ∃ b c, a.convertTo ty = some (some (b, c)) ∧ b.Valid ∧ b.getType = ty ∧ b.Same a ∧
      (∀ l, b.HasAlphabet l → a.HasAlphabet l) ∧ (c = true ↔ a.getType ≠ ty) ∧ (a.getType = ty → b = a)) := by
  cases ty with
  | dfa =>
    obtain ⟨d, c, g1, g1', g2, g3, g5, g6, g7⟩ := C47_into_dfa a ha
    obtain ⟨d0, c0, h1, _, _, h4, _⟩ := intoDfa_spec ha
    rw [g1] at h1
    obtain ⟨rfl, rfl⟩ : d = d0 ∧ c = c0 := by simpa using h1
    refine ⟨by simp [convertTo, g1'], fun _ => ⟨.dfa d, c, by simp [convertTo, g1'], g2, rfl, ⟨h4, g5⟩, ?_, g6, ?_⟩⟩
    · intro l hl
      cases hl
      exact g3
    · intro ht
      cases a with
      | dfa d' => rw [g7 d' rfl]
      | nfa _ => simp [getType] at ht
      | regex _ => simp [getType] at ht
  | nfa =>
    obtain ⟨g1, g2, g3, g4, g5⟩ := intoNfa_spec ha
    refine ⟨by simp [convertTo], fun _ => ⟨.nfa a.intoNfa.1, a.intoNfa.2, rfl, g1, rfl, ⟨g3, g4⟩, ?_, g5, ?_⟩⟩
    · intro l hl
      cases hl
      exact g2
    · intro ht
      cases a with
      | nfa n' => rfl
      | dfa _ => simp [getType] at ht
      | regex _ => simp [getType] at ht
  | regex =>
    cases a with
    | dfa d => simp [convertTo, getType]
    | nfa d => simp [convertTo, getType]
    | regex t =>
      refine ⟨by simp [convertTo, getType], fun _ => ⟨.regex t, false, rfl, ha, rfl, ⟨fun _ => Iff.rfl, fun _ => Iff.rfl⟩, ?_, ?_, ?_⟩⟩
      · exact fun _ h => h
      · simp [getType]
      · simp

/-- **C47** `prepare_to_compare_with`: same alphabet and language; a DFA to be compared with DFAs, an NFA otherwise. -/
theorem C47_prepare_to_compare_with (a : Automata) (ha : a.Valid) (ty : AutomataType) :
    ∃ b c, a.prepareToCompareWith ty = some (b, c) ∧ b.Valid ∧ b.Same a ∧ (ty = .dfa → b.getType = .dfa) ∧
      (ty ≠ .dfa → b.getType = .nfa) ∧ (c = true ↔ a.getType ≠ b.getType) := by
  obtain ⟨b, c, h1, h2, h3, h4, _, h6, h7⟩ := prepare_spec ha ty
  refine ⟨b, c, h1, h2, ⟨h3, h4⟩, fun h => by simpa [h] using h6, fun h => by simpa [h] using h6, h7⟩

/-- An expression used in examples: `(a|b)*b`. -/
def abb : RegexTree := .seq [.rep (.alt [.chr (.grapheme (s 'a')), .chr (.grapheme (s 'b'))]), .chr (.grapheme (s 'b'))]

/-- Sets iterated in reverse order. -/
def revOrd : MinOrd := ⟨List.reverse, List.reverse, List.reverse⟩

theorem revOrd_valid : revOrd.Valid := ⟨List.reverse_perm, List.reverse_perm, List.reverse_perm⟩

example : (Automata.nfa epsNfa).Valid ∧ (Automata.regex abb).Valid ∧ (Automata.dfa oddA).Valid := ⟨epsNfa_wf, trivial, oddA_wf⟩
example : ((Automata.regex abb).intoMinimizedDfa revOrd).map (fun r => (r.1.alphabet, r.1.states.length, r.2)) =
    some ([s 'a', s 'b'], 2, true) := by decide +kernel
example : ((Automata.dfa endsB).intoMinimizedDfa revOrd).map (fun r => (r.1.states.length, r.2)) = some (2, false) := by decide +kernel
example : (Automata.dfa endsB).convertTo .regex = some none ∧ (Automata.dfa endsB).getType ≠ .regex := ⟨rfl, by decide⟩

/-! ## Loading -/

/-- **C61** An error of the loader tells the reason: the text is not a text of a table (or expression), or it is, and the table has the
defect named. -/
theorem C61_load_error (cl : Str → Nat) (hcl : Segmentation cl) (text : Str) (ty : AutomataType) (e : LoadError)
    (h : load cl text ty = .error e) : e.Explains cl text ty := by
  unfold load at h
  cases ty with
  | dfa =>
    dsimp only at h
    cases hp : FaE.dfa text with
    | error e' =>
      rw [hp] at h
      cases h
      exact ⟨rfl, (C81_dfa_error_iff text).1 ⟨_, hp⟩, C81_dfa _ _ hp⟩
    | ok p =>
      rw [hp] at h
      dsimp only at h
      cases hv : Validate.dfa p with
      | error x => rw [hv] at h; cases h; exact ⟨rfl, p, C43_dfa_sound _ _ (FaE.dfa_ok.1 hp), C38_error p x hv⟩
      | ok d => rw [hv] at h; cases h
  | nfa =>
    dsimp only at h
    cases hp : FaE.nfa text with
    | error e' =>
      rw [hp] at h
      cases h
      exact ⟨rfl, (C81_nfa_error_iff text).1 ⟨_, hp⟩, C81_nfa _ _ hp⟩
    | ok p =>
      rw [hp] at h
      dsimp only at h
      cases hv : Validate.nfa p with
      | error x => rw [hv] at h; cases h; exact ⟨rfl, p, C43_nfa_sound _ _ (FaE.nfa_ok.1 hp), C39_error p x hv⟩
      | ok d => rw [hv] at h; cases h
  | regex =>
    dsimp only at h
    cases hp : RegexE.regex cl text with
    | ok t => rw [hp] at h; cases h
    | error e' =>
      rw [hp] at h
      cases h
      refine ⟨rfl, fun core hc => ⟨fun hx => ?_, (C81_regex cl hcl text core hc e').1 hp⟩⟩
      obtain ⟨t, ht⟩ := (C36_accepts_iff cl hcl text core hc).2 hx
      rw [RegexE.regex_ok.2 ht] at hp
      cases hp

/-- **C61** The same for files: the error about a file that cannot be read names the file and has the text of the system's error. -/
theorem C61_file_error (env : Env) (hcl : Segmentation env.cl) (path : Str) (ty : AutomataType) (e : LoadError)
    (h : loadFile env path ty = .error e) :
    (∃ msg, env.read path = .error msg ∧ e = .file path msg) ∨ ∃ text, env.read path = .ok text ∧ e.Explains env.cl text ty := by
  unfold loadFile at h
  cases hr : env.read path with
  | error msg => rw [hr] at h; cases h; exact Or.inl ⟨msg, rfl, rfl⟩
  | ok text => rw [hr] at h; exact Or.inr ⟨text, rfl, C61_load_error env.cl hcl text ty e h⟩

/-- The error, if there is one. -/
def errorOf {ε α : Type} : Except ε α → Option ε
  | .error e => some e
  | .ok _ => none

example : errorOf (load cl1 c!"a b\n→ n n x" .dfa) = some (.dfaCompile (.transitionDoesNotExist c!"n" c!"x")) ∧
    errorOf (load cl1 c!"a b\n→ n {n} {n y}\nm {} {}" .nfa) = some (.nfaCompile (.transitionDoesNotExist c!"n" c!"y")) ∧
    errorOf (load cl1 c!"(a" .regex) = some (.regexParse ⟨c!"(a", .verify⟩) ∧ errorOf (load cl1 c!"a b\n→ n {n} {n y}" .dfa) =
      some (.dfaParse ⟨c!"{n} {n y}", .takeTill1⟩) := by decide +kernel

/-- **C61** The loader succeeds exactly on the texts of automata (or expressions) of the requested type. -/
theorem C61_load_succeeds_iff (cl : Str → Nat) (hcl : Segmentation cl) (text : Str) (ty : AutomataType) :
    (∃ a, load cl text ty = .ok a) ↔ ∃ a, a.getType = ty ∧ IsTextOf cl text a := by
  cases ty with
  | dfa =>
    constructor
    · rintro ⟨a, h⟩
      obtain ⟨p, d, h1, h2, rfl⟩ := load_dfa_iff.1 h
      exact ⟨.dfa d, rfl, p, C43_dfa_sound _ _ h1, (C38_succeeds_iff p).1 ⟨d, h2⟩, (C38_content p d h2).1⟩
    · rintro ⟨a, ht, h⟩
      cases a with
      | dfa d =>
        obtain ⟨p, h1, h2, _⟩ := h
        obtain ⟨d', h3⟩ := (C38_succeeds_iff p).2 h2
        exact ⟨.dfa d', load_dfa_iff.2 ⟨p, d', C42_dfa_complete _ _ h1, h3, rfl⟩⟩
      | nfa _ => simp [getType] at ht
      | regex _ => simp [getType] at ht
  | nfa =>
    constructor
    · rintro ⟨a, h⟩
      obtain ⟨p, d, h1, h2, rfl⟩ := load_nfa_iff.1 h
      exact ⟨.nfa d, rfl, p, C43_nfa_sound _ _ h1, (C39_succeeds_iff p).1 ⟨d, h2⟩, (C39_content p d h2).1⟩
    · rintro ⟨a, ht, h⟩
      cases a with
      | nfa d =>
        obtain ⟨p, h1, h2, _⟩ := h
        obtain ⟨d', h3⟩ := (C39_succeeds_iff p).2 h2
        exact ⟨.nfa d', load_nfa_iff.2 ⟨p, d', C42_nfa_complete _ _ h1, h3, rfl⟩⟩
      | dfa _ => simp [getType] at ht
      | regex _ => simp [getType] at ht
  | regex =>
    obtain ⟨core, hcore, _⟩ := C36_every_text text
    constructor
    · rintro ⟨a, h⟩
      obtain ⟨t, h1, rfl⟩ := load_regex_iff.1 h
      obtain ⟨L, gs, hL⟩ := (C36_accepts_iff cl hcl text core hcore).1 ⟨t, h1⟩
      obtain ⟨e1, e2⟩ := (C36_language cl hcl text core hcore t h1 L gs).1 hL
      rw [e2] at hL
      refine ⟨.regex t, rfl, core, L, hcore, hL, ?_⟩
      rw [e1]
      exact fun w => Iff.rfl
    · rintro ⟨a, ht, h⟩
      cases a with
      | regex t =>
        obtain ⟨core', L, h1, h2, _⟩ := h
        obtain ⟨t', h3⟩ := (C36_accepts_iff cl hcl text core' h1).2 ⟨L, _, h2⟩
        exact ⟨.regex t', load_regex_iff.2 ⟨t', h3, rfl⟩⟩
      | dfa _ => simp [getType] at ht
      | nfa _ => simp [getType] at ht

/-- **C61** What is loaded is a valid automaton of the requested type described by the text, and any other automaton of
this type with this text has the same alphabet (in the same order) and language. -/
theorem C61_load_content (cl : Str → Nat) (hcl : Segmentation cl) (text : Str) (ty : AutomataType) (a : Automata)
    (h : load cl text ty = .ok a) :
    a.Valid ∧ a.getType = ty ∧ IsTextOf cl text a ∧ ∀ b, b.getType = ty → IsTextOf cl text b →
      (∀ l, a.HasAlphabet l ↔ b.HasAlphabet l) ∧ ∀ w, a.Lang w ↔ b.Lang w := by
  refine ⟨(load_valid h).1, (load_valid h).2, ?_⟩
  cases ty with
  | dfa =>
    obtain ⟨p, d, h1, h2, rfl⟩ := load_dfa_iff.1 h
    refine ⟨⟨p, C43_dfa_sound _ _ h1, (C38_succeeds_iff p).1 ⟨d, h2⟩, (C38_content p d h2).1⟩, ?_⟩
    intro b hb hbt
    cases b with
    | dfa d' =>
      obtain ⟨p', h3, _, h4⟩ := hbt
      have e := C42_dfa_complete _ _ h3
      rw [h1] at e
      cases e
      rw [(C38_content p d h2).2.2 d' h4]
      exact ⟨fun _ => Iff.rfl, fun _ => Iff.rfl⟩
    | nfa _ => simp [getType] at hb
    | regex _ => simp [getType] at hb
  | nfa =>
    obtain ⟨p, d, h1, h2, rfl⟩ := load_nfa_iff.1 h
    refine ⟨⟨p, C43_nfa_sound _ _ h1, (C39_succeeds_iff p).1 ⟨d, h2⟩, (C39_content p d h2).1⟩, ?_⟩
    intro b hb hbt
    cases b with
    | nfa d' =>
      obtain ⟨p', h3, _, h4⟩ := hbt
      have e := C42_nfa_complete _ _ h3
      rw [h1] at e
      cases e
      rw [(C39_content p d h2).2.2 d' h4]
      exact ⟨fun _ => Iff.rfl, fun _ => Iff.rfl⟩
    | dfa _ => simp [getType] at hb
    | regex _ => simp [getType] at hb
  | regex =>
    obtain ⟨t, h1, rfl⟩ := load_regex_iff.1 h
    obtain ⟨core, hcore, huniq⟩ := C36_every_text text
    obtain ⟨L, gs, hL⟩ := (C36_accepts_iff cl hcl text core hcore).1 ⟨t, h1⟩
    obtain ⟨eL, eG⟩ := (C36_language cl hcl text core hcore t h1 L gs).1 hL
    rw [eG] at hL
    refine ⟨⟨core, L, hcore, hL, by rw [eL]; exact fun w => Iff.rfl⟩, ?_⟩
    intro b hb hbt
    cases b with
    | regex t' =>
      obtain ⟨core', L', h3, h4, h5⟩ := hbt
      rw [huniq core' h3] at h4
      obtain ⟨eL', eG'⟩ := (C36_language cl hcl text core hcore t h1 L' _).1 h4
      refine ⟨fun l => by simp only [HasAlphabet, eG'], ?_⟩
      intro w
      rw [eL'] at h5
      exact (h5 w).symm
    | dfa _ => simp [getType] at hb
    | nfa _ => simp [getType] at hb

/-! ## equivalence -/

/-- **C48** `test_equivalence` (without `--minimized`) answers "equivalent" exactly for the same alphabet set and language,
whatever the types of the two automata are, and "not equivalent" otherwise. -/
theorem C48_verdict (a b : Automata) (ha : a.Valid) (hb : b.Valid) :
    ∃ r, a.testEquivalence b false = some r ∧ (a.Same b ∧ r = .equivalent ∨ ¬ a.Same b ∧ r = .notEquivalent) := by
  obtain ⟨r, h, hv⟩ := testEquivalence_spec ha hb false
  refine ⟨r, h, ?_⟩
  rcases hv with h | ⟨_, h, _⟩ | ⟨h1, _, h2⟩
  · exact Or.inr h
  · simp at h
  · exact Or.inl ⟨h1, h2⟩

/-- **C48** The command `equivalence`: if the reference can be loaded (and `--minimized` is only used for DFAs), the command
succeeds and prints one line for each file, in order, with the right verdict; at the end it logs the number of equivalent
ones. -/
theorem C48_command (env : Env) (o : MinOrd) (ho : o.Valid) (noLog : Bool) (args : EquivalenceArgs) (ref : Automata)
    (href : loadFile env args.automata (args.inType.getD args.type) = .ok ref) (hmin : args.minimized = true → args.type = .dfa) :
    ∃ e results, equivalence env o noLog args = some e ∧ e.result = .ok () ∧
      List.Forall₂ (Verdict env ref args) args.files results ∧
      List.Forall₂ (fun (fr : Str × EquivalenceResult) line => ShowsVerdict args fr.1 fr.2 line) (args.files.zip results) (outs e.lines) ∧
      (noLog = true → e.lines = (outs e.lines).map .out) ∧
      (noLog = false → e.lines.getLast? =
        some (.log (numStr (results.count .equivalent) ++ c!"/" ++ numStr args.files.length ++ c!" files passed"))) := by
  unfold loadFile at href
  cases hr : env.read args.automata with
  | error msg => rw [hr] at href; cases href
  | ok file =>
    rw [hr] at href
    obtain ⟨t, h1, h2, h3, h4, h5, h6, h7⟩ := tester_new ho href hmin
    have htable : ∃ table, t.input.table = some table := by
      cases hi : t.input with
      | dfa d =>
        rw [hi] at h4
        obtain ⟨x, hx, _⟩ := (C59_dfa_aligned d h4).1
        exact ⟨x, hx⟩
      | nfa d =>
        rw [hi] at h4
        obtain ⟨x, hx, _⟩ := (C59_nfa_aligned d h4).1
        exact ⟨x, hx⟩
      | regex x => exact ⟨_, rfl⟩
    obtain ⟨table, ht⟩ := htable
    obtain ⟨prs, hm, hf⟩ := Cli.mapM_some (f := fun path => do return (path, ← t.test env path))
      (P := fun path pr => pr.1 = path ∧ Verdict env ref args path pr.2) (fun path => by
        obtain ⟨r, hr1, hr2⟩ := tester_test (env := env) h2 h3 h4 h5 h6 h7 hmin path
        exact ⟨(path, r), by simp [hr1], rfl, hr2⟩) args.files
    obtain ⟨hzip, hver⟩ := forall₂_pairs hf
    unfold equivalence
    rw [hr]
    dsimp only
    rw [h1]
    dsimp only
    rw [ht, Option.bind_eq_bind, Option.bind_some, hm, Option.bind_eq_bind, Option.bind_some, resultLoop_spec]
    refine ⟨_, prs.map (·.2), rfl, rfl, hver, ?_, ?_, ?_⟩
    · rw [hzip]
      simp only [outs_append, outs_log, List.nil_append, List.append_nil]
      rw [outs_results, List.forall₂_map_right_iff]
      exact List.forall₂_same.2 (fun p _ => showsVerdict_resultLine args p.1 p.2)
    · rintro rfl
      simp only [logLine, ↓reduceIte, List.nil_append, List.append_nil]
      rw [outs_results, List.map_map]; rfl
    · rintro rfl
      simp only [logLine, Bool.false_eq_true, ↓reduceIte, List.getLast?_append, List.getLast?_singleton, Option.some_or, Nat.zero_add]

/-- **C48** If the reference cannot be loaded, or `--minimized` is used with another type, the command prints nothing and
ends with the error. -/
theorem C48_command_errors (env : Env) (o : MinOrd) (noLog : Bool) (args : EquivalenceArgs) :
    (∀ e, loadFile env args.automata (args.inType.getD args.type) = .error e →
      ∃ eff, equivalence env o noLog args = some eff ∧ eff.lines = [] ∧ eff.result = .error (inputError e)) ∧
    (∀ ref, loadFile env args.automata (args.inType.getD args.type) = .ok ref → args.minimized = true → args.type ≠ .dfa →
      ∃ eff, equivalence env o noLog args = some eff ∧ eff.lines = [] ∧ eff.result = .error .invalidMinimizedConfig) := by
  constructor
  · intro e he
    unfold loadFile at he
    unfold equivalence
    cases hr : env.read args.automata with
    | error msg =>
      rw [hr] at he
      cases he
      exact ⟨_, rfl, rfl, rfl⟩
    | ok file =>
      rw [hr] at he
      dsimp only at he ⊢
      have : Tester.readInput env.cl file (args.inType.getD args.type) = some (.error (inputError e)) := readInput_error he
      unfold Tester.new
      rw [this]
      exact ⟨_, rfl, rfl, rfl⟩
  · intro ref hl hm ht
    unfold loadFile at hl
    unfold equivalence
    cases hr : env.read args.automata with
    | error msg => rw [hr] at hl; cases hl
    | ok file =>
      rw [hr] at hl
      dsimp only at hl ⊢
      obtain ⟨b, hb, _⟩ := readInput_ok hl
      unfold Tester.new
      rw [hb]
      dsimp only
      rw [if_pos hm, if_neg ht]
      exact ⟨_, rfl, rfl, rfl⟩

/-- **C48** The texts of the verdicts tell them apart: the text "Equivalent" is shown for nothing but equivalent files. -/
theorem C48_texts (r : EquivalenceResult) :
    (r.text = c!"Equivalent" ↔ r = .equivalent) ∧ (r.text = c!"Not Equivalent" ↔ r = .notEquivalent) ∧
    (r.text = c!"Equivalent but not minimized" ↔ r = .notMinimized) := by
  cases r <;> simp [EquivalenceResult.text]

/-- **C49** With `--minimized`, a submitted DFA is reported equivalent iff it has the alphabet set and language of the reference
(of any type) and is minimal, "not minimized" iff only the latter fails, and not equivalent otherwise. -/
theorem C49_minimized (env : Env) (o : MinOrd) (ho : o.Valid) (args : EquivalenceArgs) (refText subText path : Str) (ref : Automata)
    (sub : Dfa) (hm : args.minimized = true) (ht : args.type = .dfa)
    (href : load env.cl refText (args.inType.getD args.type) = .ok ref) (hread : env.read path = .ok subText)
    (hsub : load env.cl subText .dfa = .ok (.dfa sub)) :
    ∃ t r, Tester.new env.cl o refText args = some (.ok t) ∧ t.test env path = some r ∧
      (r = .equivalent ↔ ref.Same (.dfa sub) ∧ Minimal sub) ∧ (r = .notMinimized ↔ ref.Same (.dfa sub) ∧ ¬ Minimal sub) ∧
      (r = .notEquivalent ↔ ¬ ref.Same (.dfa sub)) := by
  obtain ⟨t, h1, h2, h3, h4, h5, h6, h7⟩ := tester_new (o := o) ho href (fun _ => ht)
  obtain ⟨r, hr, hv⟩ := tester_test (env := env) h2 h3 h4 h5 h6 h7 (fun _ => ht) path
  refine ⟨t, r, h1, hr, ?_⟩
  unfold Verdict at hv
  rw [hread] at hv
  dsimp only at hv
  rw [ht, hsub] at hv
  dsimp only at hv
  have e : (∀ d, Automata.dfa sub = .dfa d → Minimal d) ↔ Minimal sub :=
    ⟨fun h => h sub rfl, fun h d hd => by cases hd; exact h⟩
  rw [e] at hv
  rcases hv with ⟨h, rfl⟩ | ⟨h, ⟨_, h'⟩, rfl⟩ | ⟨h, h', rfl⟩
  · simp [h]
  · simp [h, h']
  · have : Minimal sub := by
      by_contra hc
      exact h' ⟨hm, hc⟩
    simp [h, this]

/-- Some files. -/
def demo : Env where
  read p :=
    if p = c!"/x/min.dfa" then .ok c!"a b\n-> n n y\n* y n y\n"
    else if p = c!"/x/big.dfa" then .ok c!"a b\r\n-> n n y\n* y m y # comment\nm n y"
    else if p = c!"odd.dfa" then .ok c!"b a\n→ e e o\n* o o e\n"
    else if p = c!"c.dfa" then .ok c!"c\n→ e e"
    else if p = c!"ends.nfa" then .ok c!"a b\n→ n {n} {n y}\n* y {} {}"
    else if p = c!"ends.re" then .ok c!" (a|b)*b\n"
    else if p = c!"bad.dfa" then .ok c!"a b\n→ n n x"
    else if p = c!"words" then .ok c!"ab\r\nb\n\nba\nbb"
    else .error c!"gone"
  cl := cl1
  seg t := t.map (fun c => [c])
  millis := 7

/-- `dandy equivalence --type dfa --in-type regex --minimized --path-length 1 ends.re /x/min.dfa …` -/
def demoArgs : EquivalenceArgs :=
  ⟨some .regex, .dfa, true, false, some 1, c!"ends.re", [c!"/x/min.dfa", c!"/x/big.dfa", c!"odd.dfa", c!"bad.dfa", c!"words", c!"none"]⟩

example : (loadFile demo demoArgs.automata .regex).isOk = true := by decide +kernel
example : (equivalence demo revOrd true demoArgs).map (·.lines) = some [.out c!"min.dfa: Equivalent", .out c!"big.dfa: Equivalent but not minimized",
    .out c!"odd.dfa: Not Equivalent", .out c!"bad.dfa: Failed to validate (State 'x' does not exist (in transition from state 'n'))",
    .out c!"words: Failed to parse (error Space at: \n\nba\nbb)", .out c!"none: Failed to read (gone)"] := by decide +kernel
example : ((equivalence demo revOrd false { demoArgs with inType := none, automata := c!"/x/big.dfa", type := .dfa, bool := true, pathLength := none, files := [c!"/x/min.dfa", c!"odd.dfa"] }).map
    (fun e => e.lines.drop 3)) = some [.out c!"/x/min.dfa: true", .out c!"odd.dfa: false", .log c!"1/2 files passed"] := by decide +kernel

/-! ## Binary operations -/

/-- **C50** The commands `union`, `intersection`, `difference` and `symmetric-difference` on two loadable files. If the alphabets are different sets:
an error and no output. Otherwise: the table of a DFA accepting exactly the combined language (minimal with `--minimized`), the
first words of it (with `--enumerate`), and the right verdict about the third file (if given). -/
theorem C50_binary_op (env : Env) (ord : List (Nat × Nat) → List (Nat × Nat)) (hord : ∀ l, (ord l).Perm l) (o1 o2 o3 : MinOrd)
    (h1 : o1.Valid) (h2 : o2.Valid) (h3 : o3.Valid) (noLog : Bool) (args : BinaryOpArgs) (op : BinaryOperation) (a1 a2 : Automata)
    (ha1 : loadFile env args.first args.type = .ok a1) (ha2 : loadFile env args.second (args.secondType.getD args.type) = .ok a2) :
    (¬ SameElems a1.elems a2.elems → ∃ e, binaryOp env ord o1 o2 o3 noLog args op = some e ∧ outs e.lines = [] ∧
      e.result = .error .differentAlphabets) ∧
    (SameElems a1.elems a2.elems → ∃ e d table words cmp, binaryOp env ord o1 o2 o3 noLog args op = some e ∧
      outs e.lines = table :: (words ++ cmp) ∧ d.toTable = some table ∧ d.WF ∧ a1.HasAlphabet d.alphabet ∧
      (∀ w, d.Lang w ↔ op.Combine (a1.Lang w) (a2.Lang w)) ∧ (args.minimized = true → Minimal d) ∧
      EnumReport op d.alphabet (fun w => op.Combine (a1.Lang w) (a2.Lang w)) args.enumerate words ∧
      CompareReport env op args a1.elems (fun w => op.Combine (a1.Lang w) (a2.Lang w)) cmp e.result) := by
  obtain ⟨d1, l1, p1, w1, al1, el1, la1, ou1⟩ := operand_spec h1 (loadFile_valid ha1).1 noLog args.minimized 1
  obtain ⟨d2, l2, p2, w2, al2, el2, la2, ou2⟩ := operand_spec h2 (loadFile_valid ha2).1 noLog args.minimized 2
  have es : SameElems a1.elems a2.elems ↔ SameElems d1.alphabet d2.alphabet :=
    ⟨fun h e => ((el1 e).trans (h e)).trans (el2 e).symm, fun h e => ((el1 e).symm.trans (h e)).trans (el2 e)⟩
  constructor
  · intro hs
    have := apply_none hord op w1 w2 (fun h => hs (es.2 h))
    unfold binaryOp
    rw [ha1]; dsimp only
    rw [ha2]; dsimp only
    rw [p1, Option.bind_eq_bind, Option.bind_some]; dsimp only
    rw [p2, Option.bind_eq_bind, Option.bind_some]; dsimp only
    rw [this, Option.bind_eq_bind, Option.bind_some]; dsimp only
    exact ⟨_, rfl, by rw [outs_append, ou1, ou2]; rfl, rfl⟩
  · intro hs
    obtain ⟨c, q1, q2, q3, q4⟩ := apply_some hord op w1 w2 (es.1 hs)
    obtain ⟨d, l3, table, r1, r2, r3, r4, r5, _, r6, r7⟩ := showCombined_spec h3 noLog op args q2
    obtain ⟨l4, u1, u2⟩ := enumerateCombined_spec op r2 args.enumerate
    obtain ⟨e, v1, v2⟩ := compareCombined_spec env op args r2
    have lang : ∀ w, d.Lang w ↔ op.Combine (a1.Lang w) (a2.Lang w) :=
      fun w => ((r4 w).trans (q4 w)).trans (Combine.congr op (la1 w) (la2 w))
    unfold binaryOp
    rw [ha1]; dsimp only
    rw [ha2]; dsimp only
    rw [p1, Option.bind_eq_bind, Option.bind_some]; dsimp only
    rw [p2, Option.bind_eq_bind, Option.bind_some]; dsimp only
    rw [q1, Option.bind_eq_bind, Option.bind_some]; dsimp only
    rw [r1, Option.bind_eq_bind, Option.bind_some]; dsimp only
    rw [u1, Option.bind_some, v1, Option.bind_some]
    refine ⟨_, d, table, outs l4, outs e.lines, rfl, ?_, r6, r2, ?_, lang, r5, u2.congr lang, ?_⟩
    · simp only [outs_append, ou1, ou2, r7, List.nil_append, List.cons_append, List.append_assoc]
    · rw [r3, q3]; exact al1
    · exact v2.congr (by rw [r3, q3]; exact el1) lang

/-- **C50** If an operand cannot be loaded, there is no output, and the error tells which operand and why. -/
theorem C50_errors (env : Env) (ord : List (Nat × Nat) → List (Nat × Nat)) (o1 o2 o3 : MinOrd) (noLog : Bool) (args : BinaryOpArgs)
    (op : BinaryOperation) :
    (∀ e, loadFile env args.first args.type = .error e →
      ∃ r, binaryOp env ord o1 o2 o3 noLog args op = some r ∧ r.lines = [] ∧ r.result = .error (.inputFile 1 e)) ∧
    (∀ a e, loadFile env args.first args.type = .ok a → loadFile env args.second (args.secondType.getD args.type) = .error e →
      ∃ r, binaryOp env ord o1 o2 o3 noLog args op = some r ∧ r.lines = [] ∧ r.result = .error (.inputFile 2 e)) := by
  constructor
  · intro e he
    unfold binaryOp
    rw [he]
    exact ⟨_, rfl, rfl, rfl⟩
  · intro a e ha he
    unfold binaryOp
    rw [ha]; dsimp only
    rw [he]
    exact ⟨_, rfl, rfl, rfl⟩

example : (loadFile demo c!"ends.nfa" .nfa).isOk = true ∧ (loadFile demo c!"odd.dfa" .dfa).isOk = true := by decide +kernel
example : (binaryOp demo List.reverse revOrd revOrd revOrd true ⟨.nfa, some .dfa, .regex, true, some 3, c!"ends.nfa", c!"odd.dfa", some c!"ends.re"⟩ .intersection).map
    (fun e => e.lines.drop 1) = some [.out c!"First 3 words in the language of the intersection:", .out c!"ab", .out c!"abb", .out c!"bab",
      .out c!"Intersection of the two provided NFAs is NOT EQUIVALENT to the third Regex"] := by decide +kernel
example : (binaryOp demo List.reverse revOrd revOrd revOrd true ⟨.nfa, some .dfa, .regex, true, some 3, c!"ends.nfa", c!"c.dfa", none⟩ .union).map
    (fun e => (e.lines, match e.result with | .error e => some e | .ok _ => none)) = some ([], some .differentAlphabets) := by decide +kernel

/-! ## Testing files -/

/-- **C51** The command `test-files`: the files are tested in order up to the first which cannot be read (which is then the
error). In `lines` mode each line is marked OK iff its grapheme clusters are in the language, and the counts are right; in `files` mode
a file is OK iff all its lines are in the language, otherwise the first line which is not is named. -/
theorem C51_test_files (env : Env) (noLog : Bool) (automata : Str) (type : AutomataType) (testType : TestType) (files : List Str)
    (a : Automata) (h : loadFile env automata type = .ok a) :
    ∃ e read reports rest, testFiles env noLog automata type testType files = some e ∧ files = read ++ rest ∧
      outs e.lines = reports.flatten ∧
      List.Forall₂ (fun file report => ∃ content, env.read file = .ok content ∧
        (testType = .lines → LinesReport (fun l => a.Lang (env.seg l)) file content report) ∧
        (testType = .files → FilesReport (fun l => a.Lang (env.seg l)) file content report)) read reports ∧
      (rest = [] ∧ e.result = .ok () ∨
        ∃ bad more msg, rest = bad :: more ∧ env.read bad = .error msg ∧ e.result = .error (.file bad msg)) := by
  have hv := (loadFile_valid h).1
  obtain ⟨g1, _, _, g4, _⟩ := intoNfa_spec hv
  obtain ⟨table, ht, _⟩ := (C59_nfa_aligned _ g1).1
  have hA : ∀ l, a.intoNfa.1.acceptsGraphemes env.seg l = true ↔ a.Lang (env.seg l) := by
    intro l
    rw [← g4, ← C02_nfa_accepts_iff _ g1]
    rfl
  obtain ⟨read, reports, rest, h1, h2, h3, h4⟩ := fileLoop_spec env a.intoNfa.1 testType files
  unfold testFiles
  rw [h]; dsimp only
  rw [ht, Option.bind_eq_bind, Option.bind_some]
  refine ⟨_, read, reports, rest, rfl, h1, ?_, ?_, h4⟩
  · rw [outs_append, outs_log]; exact h2
  · refine h3.imp ?_
    rintro file report ⟨content, c1, rfl⟩
    refine ⟨content, c1, ?_, ?_⟩
    · rintro rfl; exact testOne_lines env.seg _ _ hA file content
    · rintro rfl; exact testOne_files env.seg _ _ hA file content

/-- **C51** If the automaton cannot be loaded, there is no output, and the error tells why. -/
theorem C51_errors (env : Env) (noLog : Bool) (automata : Str) (type : AutomataType) (testType : TestType) (files : List Str)
    (e : LoadError) (h : loadFile env automata type = .error e) :
    ∃ r, testFiles env noLog automata type testType files = some r ∧ r.lines = [] ∧ r.result = .error e := by
  unfold testFiles
  rw [h]
  exact ⟨_, rfl, rfl, rfl⟩

/-- **C51** Every text has exactly one list of lines. -/
theorem C51_lines (text : Str) : ∃! ls, Lines text ls :=
  ⟨linesOf text, lines_linesOf text, fun _ h => (linesOf_of_lines h).symm⟩

example : (testFiles demo true c!"ends.nfa" .nfa .lines [c!"words", c!"gone", c!"words"]).map
    (fun e => (e.lines, match e.result with | .error e => some e | .ok _ => none)) =
    some ([.out c!"Testing file words:", .out c!"[ OK ] ab", .out c!"[ OK ] b", .out c!"[FAIL] ", .out c!"[FAIL] ba", .out c!"[ OK ] bb",
      .out c!"3/5 lines passed in file words:"], some (.file c!"gone" c!"gone")) := by decide +kernel
example : (testFiles demo true c!"ends.re" .regex .files [c!"words"]).map (·.lines) = some [.out c!"[FAIL] words failed on "] := by decide +kernel

/-! ## Enumeration -/

/-- **C62** `enumerate-file` prints exactly the first `n` words of the language, one per line, in length-lexicographic order; if there are fewer, it
prints all of them (and says so, in the log). -/
theorem C62_enumerate_file (env : Env) (o : EpsOrd) (ho : o.Valid) (noLog : Bool) (file : Str) (type : AutomataType) (n : Nat)
    (a : Automata) (h : loadFile env file type = .ok a) :
    ∃ e al ws, enumerateFile env o noLog file type n = some e ∧ e.result = .ok () ∧ a.HasAlphabet al ∧ FirstWords al a.Lang n ws ∧
      outs e.lines = ws.map shown ∧ (noLog = true → e.lines = (ws.map shown).map .out) ∧
      (noLog = false → e.lines = .log (c!"First " ++ numStr n ++ c!" words of the language of the regex:") :: ((ws.map shown).map .out ++
        if ws.length < n then [.log (c!"(only " ++ numStr ws.length ++ c!" words exists in the language of the regex)")] else [])) := by
  obtain ⟨g1, g2, _, g4, _⟩ := intoNfa_spec (loadFile_valid h).1
  obtain ⟨ls, ws, h1, h2, h3, h4, h5⟩ := enumerateNfa_spec o ho g1 noLog n
  unfold enumerateFile
  rw [h]; dsimp only
  rw [h1]
  exact ⟨_, _, ws, rfl, rfl, g2, h2.congr g4, h3, h4, h5⟩

/-- **C62** `enumerate-regex`: the same, for an expression given on the command line. -/
theorem C62_enumerate_regex (env : Env) (o : EpsOrd) (ho : o.Valid) (noLog : Bool) (regex : Str) (n : Nat) (a : Automata)
    (h : load env.cl regex .regex = .ok a) :
    ∃ e al ws, enumerateRegex env o noLog regex n = some e ∧ e.result = .ok () ∧ a.HasAlphabet al ∧ FirstWords al a.Lang n ws ∧
      outs e.lines = ws.map shown ∧ (noLog = true → e.lines = (ws.map shown).map .out) ∧
      (noLog = false → e.lines = .log (c!"First " ++ numStr n ++ c!" words of the language of the regex:") :: ((ws.map shown).map .out ++
        if ws.length < n then [.log (c!"(only " ++ numStr ws.length ++ c!" words exists in the language of the regex)")] else [])) := by
  obtain ⟨t, ht, rfl⟩ := load_regex_iff.1 h
  obtain ⟨g1, g2, _, g4, _⟩ := intoNfa_spec (a := .regex t) trivial
  obtain ⟨ls, ws, h1, h2, h3, h4, h5⟩ := enumerateNfa_spec o ho g1 noLog n
  unfold enumerateRegex
  rw [RegexE.regex_ok.2 ht]; dsimp only
  change enumerateNfa o t.toNfa noLog n = some ls at h1
  rw [h1]
  exact ⟨_, _, ws, rfl, rfl, g2, h2.congr g4, h3, h4, h5⟩

/-- **C62** Unless file and text can be loaded, there is no output, and the error tells why. -/
theorem C62_errors (env : Env) (o : EpsOrd) (noLog : Bool) (file : Str) (n : Nat) (e : LoadError) :
    (∀ type, loadFile env file type = .error e →
      ∃ r, enumerateFile env o noLog file type n = some r ∧ r.lines = [] ∧ r.result = .error e) ∧
    (load env.cl file .regex = .error e →
      ∃ r x, enumerateRegex env o noLog file n = some r ∧ r.lines = [] ∧ r.result = .error x ∧ e = .regexParse x) := by
  constructor
  · intro type h
    unfold enumerateFile
    rw [h]
    exact ⟨_, rfl, rfl, rfl⟩
  · intro h
    unfold load at h
    unfold enumerateRegex
    revert h
    generalize RegexE.regex env.cl file = x
    cases x with
    | error x => intro h; cases h; exact ⟨_, x, rfl, rfl, rfl, rfl⟩
    | ok t => intro h; cases h

/-- **C62** There is only one list of first words, so the output is determined by alphabet, language and number. -/
theorem C62_first_words_unique (al : List Str) (L : Word → Prop) (n : Nat) (ws ws' : List Word) (h : FirstWords al L n ws)
    (h' : FirstWords al L n ws') (hnd : al.Nodup) : ws = ws' := FirstWords.unique hnd h h'

def revEps : EpsOrd := ⟨fun _ _ => List.reverse, List.reverse⟩

theorem revEps_valid : revEps.Valid := ⟨fun _ _ => List.reverse_perm, List.reverse_perm⟩

example : (enumerateFile demo revEps true c!"ends.re" .regex 4).map (·.lines) = some [.out c!"b", .out c!"ab", .out c!"bb", .out c!"aab"] := by decide +kernel
example : (enumerateRegex demo revEps false c!"ε|ab" 4).map (·.lines) =
    some [.log c!"First 4 words of the language of the regex:", .out c!"(empty word)", .out c!"ab",
      .log c!"(only 2 words exists in the language of the regex)"] := by decide +kernel

/-! ## Paths -/

/-- **C52** (partial) What `--path-length` shows of a path consisting of the given pieces between slashes; its names are the
pieces which are neither empty nor a single dot. Nothing given: the whole path. 0: nothing. At most as many as there are names: the last `n`
names. More, for a relative path: all names (a single dot, if the path consists of that only). Missing: more, for an absolute
path, see `C52_false_absolute`. -/
theorem C52_last_n_components_partial (ps : List Str) (hne : ps ≠ []) (hps : ∀ p ∈ ps, '/' ∉ p) (names : List Str)
    (hnames : names = ps.filter (fun p => decide (p ≠ [] ∧ p ≠ ['.']))) (path : Str) (hpath : path = List.intercalate ['/'] ps) :
    lastNComponents path none = some path ∧ lastNComponents path (some 0) = none ∧
    (∀ n, 0 < n → n ≤ names.length → lastNComponents path (some n) = some (List.intercalate ['/'] (names.drop (names.length - n)))) ∧
    (∀ n, names.length < n → path.head? ≠ some '/' → (names ≠ [] ∨ ps.head? ≠ some ['.']) →
      lastNComponents path (some n) = some (List.intercalate ['/'] names)) ∧
    (∀ n, 0 < n → names = [] → ps.head? = some ['.'] → lastNComponents path (some n) = some ['.']) := by
  subst hnames hpath
  refine ⟨rfl, rfl, ?_, ?_, ?_⟩
  · intro n h0 hn
    exact lastN_few hne hps h0 hn
  · intro n hn ha hx
    have := lastN_relative hne hps hn ha
    rw [if_neg (by rintro ⟨h1, h2⟩; exact hx.elim (fun h => h h1) (fun h => h h2))] at this
    exact this
  · intro n h0 hn hd
    have ha : (joinSlash ps).head? ≠ some '/' := by
      cases ps with
      | nil => simp at hd
      | cons p ps =>
        have : p = ['.'] := by simpa using hd
        subst this
        rw [joinSlash_head (by simp)]
        decide
    have := lastN_relative (n := n) hne hps (by unfold namesOfPieces; rw [hn]; exact h0) ha
    rw [if_pos ⟨hn, hd⟩] at this
    exact this

/-- **C52** is false for absolute paths with fewer names than requested: only a slash is shown, not the whole path. -/
theorem C52_false_absolute (ps : List Str) (hne : ps ≠ []) (hps : ∀ p ∈ ps, '/' ∉ p) (n : Nat)
    (hn : (ps.filter (fun p => decide (p ≠ [] ∧ p ≠ ['.']))).length < n) (ha : (List.intercalate ['/'] ps).head? = some '/') :
    lastNComponents (List.intercalate ['/'] ps) (some n) = some ['/'] := lastN_absolute hne hps hn ha

example : lastNComponents c!"/home/user//x/../y.dfa" (some 3) = some c!"x/../y.dfa" := by decide +kernel
example : lastNComponents c!"./x/./y.dfa" (some 9) = some c!"x/y.dfa" := by decide +kernel
example : lastNComponents c!"/x/y.dfa" (some 3) = some c!"/" := by decide +kernel

/-! ## The output file -/

/-- **C63** (partial) The file given by `--out` contains the output lines (without the logged ones) in order. Missing: the line ends, see
`C63_false_line_ends`. -/
theorem C63_out_file_partial (lines : List Line) : outFile lines = (outs lines).flatten := by
  induction lines with
  | nil => rfl
  | cons l lines ih =>
    cases l with
    | log t => exact ih
    | out t =>
      have e : outs (.out t :: lines) = t :: outs lines := rfl
      rw [e, List.flatten_cons, ← ih]; rfl

/-- **C63** (partial) Exactly when the lines of the file are the output lines, if none of them is empty or has a line end of its own: if there is
at most one. -/
theorem C63_out_file_iff_partial (lines : List Line) (h : ∀ t ∈ outs lines, t ≠ [] ∧ '\n' ∉ t) :
    Lines (outFile lines) (outs lines) ↔ (outs lines).length ≤ 1 := by
  rw [C63_out_file_partial]
  generalize outs lines = os at h
  have hn : '\n' ∉ os.flatten := by
    rw [List.mem_flatten]
    rintro ⟨t, ht, hc⟩
    exact (h t ht).2 hc
  constructor
  · intro hl
    generalize os.flatten = f at hn hl
    cases hl with
    | nil => simp
    | last _ _ => simp
    | lf _ _ _ => exact absurd (by simp) hn
    | crlf _ _ => exact absurd (by simp) hn
  · intro hle
    match os, hle with
    | [], _ => exact .nil
    | [t], _ => rw [List.flatten_singleton]; exact .last (h t (by simp)).1 (h t (by simp)).2

/-- The two words of the command of the next theorem. -/
example : (∀ t ∈ outs [.out c!"a", .out c!"b"], t ≠ [] ∧ '\n' ∉ t) ∧ ¬ (outs [.out c!"a", .out c!"b"]).length ≤ 1 := by decide

/-- **C63** The output on the console and in the file differ: the file has no line ends, so that different outputs give
the same file. -/
theorem C63_false_line_ends : ∃ e e' : Effect NomError,
    enumerateRegex demo revEps true c!"a|b|ab" 2 = some e ∧ enumerateRegex demo revEps true c!"ab" 2 = some e' ∧
    stdout e.lines = c!"a\nb\n" ∧ stdout e'.lines = c!"ab\n" ∧ outFile e.lines = c!"ab" ∧ outFile e'.lines = c!"ab" := by
  refine ⟨⟨[.out c!"a", .out c!"b"], .ok ()⟩, ⟨[.out c!"ab"], .ok ()⟩, ?_, ?_, ?_, ?_, ?_, ?_⟩ <;> decide +kernel

/-! ## Instances of the theorems of this file -/

example := C47_into_dfa (.nfa Samples.epsNfa) Samples.epsNfa_wf
example := C47_into_nfa (.nfa Samples.epsNfa) Samples.epsNfa_wf
example := C47_into_minimized_dfa revOrd revOrd_valid (.nfa Samples.epsNfa) Samples.epsNfa_wf
example := C47_into_minimized_dfa_if_not_dfa revOrd revOrd_valid (.nfa Samples.epsNfa) Samples.epsNfa_wf
example := C47_convert_to (.nfa Samples.epsNfa) Samples.epsNfa_wf .dfa
example := C47_prepare_to_compare_with (.nfa Samples.epsNfa) Samples.epsNfa_wf .dfa
example := C61_load_error cl1 cl1_seg c!"a b\n→ n n x" .dfa _ rfl
example := C61_load_succeeds_iff cl1 cl1_seg c!"(a|b)*b" .regex
example := C61_load_content cl1 cl1_seg c!"(a|b)*b" .regex _ rfl
example := C48_verdict (.nfa Samples.epsNfa) (.dfa Samples.oddA) Samples.epsNfa_wf Samples.oddA_wf
example := C48_command demo revOrd revOrd_valid true demoArgs _ rfl (fun _ => rfl)
example := C48_command_errors demo revOrd true { demoArgs with automata := c!"gone" }
example := C48_texts .notMinimized
example := C50_binary_op demo List.reverse (fun l => List.reverse_perm l) revOrd revOrd revOrd revOrd_valid revOrd_valid revOrd_valid true
  ⟨.nfa, some .dfa, .regex, true, some 3, c!"ends.nfa", c!"odd.dfa", some c!"ends.re"⟩ .intersection _ _ rfl rfl
example := C51_test_files demo true c!"ends.nfa" .nfa .lines [c!"words", c!"gone", c!"words"] _ rfl
example := C51_errors demo true c!"bad.dfa" .dfa .lines [c!"words"] _ rfl
example := C62_enumerate_file demo revEps revEps_valid true c!"ends.re" .regex 4 _ rfl
example := C62_enumerate_regex demo revEps revEps_valid false c!"ε|ab" 4 _ rfl
example := C62_errors demo revEps false c!"bad.dfa" 4 (.dfaCompile (.transitionDoesNotExist c!"n" c!"x"))
example := C52_last_n_components_partial [[], c!"x", c!".", c!"y.dfa"] (by decide) (by decide) _ rfl _ rfl
example := C63_out_file_partial [.out c!"a", .log c!"b", .out c!"c"]

end Dandy
