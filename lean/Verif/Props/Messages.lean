import Verif.Proofs.Messages
import Verif.Props.Cli
import Verif.Props.Wasm
import Verif.Model.CliMain

/-! # C125: messages of errors tell errors apart -/

namespace Dandy
open Cli Messages

/-- The error is reported for some text of a table. -/
def Reported (e : ParseError) : Prop :=
  (∃ t p, Fa.dfa t = some p ∧ Validate.dfa p = .error e) ∨ ∃ t p, Fa.nfa t = some p ∧ Validate.nfa p = .error e

private theorem Reported.plain {e : ParseError} (h : Reported e) : Plain e := by
  rcases h with ⟨t, p, h1, h2⟩ | ⟨t, p, h1, h2⟩
  · exact plain_dfa (C43_dfa_sound _ _ h1) (C38_error p e h2)
  · exact plain_nfa (C43_nfa_sound _ _ h1) (C39_error p e h2)

/-- **C125** The messages of the parsers, in both of their forms, tell the place and the kind of the error: different errors have different
messages, whichever characters are shown unescaped. -/
theorem C125_parse (plain : Char → Bool) (e f : NomError) :
    (e.debug plain = f.debug plain ↔ e = f) ∧ (e.text = f.text ↔ e = f) :=
  ⟨⟨debug_inj, fun h => h ▸ rfl⟩, ⟨text_inj, fun h => h ▸ rfl⟩⟩

/-- **C125** Different defects of tables have different messages. -/
theorem C125_defects (e f : ParseError) (he : Reported e) (hf : Reported f) : parseErrorText e = parseErrorText f ↔ e = f :=
  ⟨parseErrorText_inj he.plain hf.plain, fun h => h ▸ rfl⟩

private def LoadPlain : AutomataType → LoadError → Prop
  | .dfa, .dfaParse _ | .nfa, .nfaParse _ | .regex, .regexParse _ => True
  | .dfa, .dfaCompile x | .nfa, .nfaCompile x => Plain x
  | _, _ => False

private theorem load_reported {cl : Str → Nat} {t : Str} {ty : AutomataType} {e : LoadError} (h : Automata.load cl t ty = .error e) :
    LoadPlain ty e := by
  unfold Automata.load at h
  cases ty <;> dsimp only at h
  · split at h
    · cases h; trivial
    · rename_i p hp
      split at h
      · rename_i x hx; cases h; exact Reported.plain (.inl ⟨t, p, FaE.dfa_ok.1 hp, hx⟩)
      · cases h
  · split at h
    · cases h; trivial
    · rename_i p hp
      split at h
      · rename_i x hx; cases h; exact Reported.plain (.inr ⟨t, p, FaE.nfa_ok.1 hp, hx⟩)
      · cases h
  · split at h
    · cases h; trivial
    · cases h

/-- **C125** Different reasons why texts of a given kind cannot be loaded have different messages. -/
theorem C125_load (cl : Str → Nat) (t u : Str) (ty : AutomataType) (e f : LoadError)
    (he : Automata.load cl t ty = .error e) (hf : Automata.load cl u ty = .error f) : e.text = f.text ↔ e = f := by
  refine ⟨fun h => ?_, fun h => h ▸ rfl⟩
  have hp := load_reported he
  have hq := load_reported hf
  clear he hf
  unfold LoadError.text at h
  unfold LoadPlain at hp hq
  cases ty <;> cases e <;> cases f <;>
    simp only [List.cons_append, List.nil_append, List.cons.injEq, true_and, false_and, Char.reduceEq] at h hp hq
  · rw [text_inj h]
  · rw [parseErrorText_inj hp hq h]
  · rw [text_inj h]
  · rw [parseErrorText_inj hp hq h]
  · rw [text_inj h]

/-- **C125** The messages for NFAs call them DFAs: for some text, the messages for a DFA and for an NFA are the same. -/
theorem C125_kind_false : ¬ ∀ (cl : Str → Nat) (t : Str) (e f : LoadError),
    Automata.load cl t .dfa = .error e → Automata.load cl t .nfa = .error f → e.text = f.text → e = f := by
  intro h
  exact absurd (h (fun _ => 1) c!"a" _ _ rfl rfl (by decide +kernel)) (by decide +kernel)

private def InputPlain : EquivalenceError → Prop
  | .dfaParse _ | .nfaParse _ | .regexParse _ => True
  | .dfa x | .nfa x => Plain x
  | _ => False

private theorem readInput_reported {cl : Str → Nat} {t : Str} {ty : AutomataType} {e : EquivalenceError}
    (h : Tester.readInput cl t ty = some (.error e)) : InputPlain e := by
  unfold Tester.readInput at h
  cases ty <;> dsimp only at h
  · split at h
    · cases h; trivial
    · rename_i p hp
      split at h
      · rename_i x hx; cases h; exact Reported.plain (.inl ⟨t, p, FaE.dfa_ok.1 hp, hx⟩)
      · cases h
  · split at h
    · cases h; trivial
    · rename_i p hp
      split at h
      · rename_i x hx; cases h; exact Reported.plain (.inr ⟨t, p, FaE.nfa_ok.1 hp, hx⟩)
      · cases h
  · split at h
    · cases h; trivial
    · rename_i r _
      cases hr : r.toNfa.toDfa <;> rw [hr] at h <;> cases h

/-- **C125** The command `equivalence` has different messages for all of its errors with the file compared to, of all three kinds. -/
theorem C125_equivalence (cl : Str → Nat) (plain : Char → Bool) (t u : Str) (ty ty' : AutomataType) (e f : EquivalenceError)
    (he : Tester.readInput cl t ty = some (.error e)) (hf : Tester.readInput cl u ty' = some (.error f)) :
    e.text plain = f.text plain ↔ e = f := by
  refine ⟨fun h => ?_, fun h => h ▸ rfl⟩
  have hp := readInput_reported he
  have hq := readInput_reported hf
  clear he hf
  unfold EquivalenceError.text at h
  unfold InputPlain at hp hq
  cases e <;> cases f <;>
    simp only [List.cons_append, List.nil_append, List.cons.injEq, true_and, false_and, Char.reduceEq] at h hp hq
  · rw [debug_inj h]
  · rw [parseErrorText_inj hp hq h]
  · rw [debug_inj h]
  · rw [parseErrorText_inj hp hq h]
  · rw [debug_inj h]

/-- **C125** Different verdicts on a file are printed differently. -/
theorem C125_verdict (r s : EquivalenceResult) (hr : ∀ e, r = .failedToValidate e → Reported e) (hs : ∀ e, s = .failedToValidate e → Reported e) :
    r.text = s.text ↔ r = s := by
  refine ⟨fun h => ?_, fun h => h ▸ rfl⟩
  unfold EquivalenceResult.text at h
  cases r <;> cases s <;>
    simp only [List.cons_append, List.nil_append, List.cons.injEq, true_and, reduceCtorEq, false_and, Char.reduceEq, List.cons_ne_nil] at h ⊢
  · rw [List.append_cancel_right h]
  · rw [List.append_cancel_right h]
  · rw [parseErrorText_inj (hr _ rfl).plain (hs _ rfl).plain (List.append_cancel_right h)]

/-- **C125** The bindings for the browser throw different messages for different errors. -/
theorem C125_wasm (plain : Char → Bool) (kind : Str) (x y : Wasm.LoadError) (hx : ∀ e, x = .validate e → Reported e)
    (hy : ∀ e, y = .validate e → Reported e) : x.text plain kind = y.text plain kind ↔ x = y := by
  refine ⟨fun h => ?_, fun h => h ▸ rfl⟩
  cases x <;> cases y <;> unfold Wasm.LoadError.text at h
  · rw [debug_inj (List.append_cancel_left h)]
  · rename_i f
    exfalso
    cases f <;> unfold parseErrorText at h <;>
      simp only [List.append_assoc, List.cons_append, List.nil_append, List.cons.injEq, true_and, false_and, Char.reduceEq] at h
  · rename_i f _
    exfalso
    cases f <;> unfold parseErrorText at h <;>
      simp only [List.append_assoc, List.cons_append, List.nil_append, List.cons.injEq, true_and, false_and, Char.reduceEq] at h
  · rw [parseErrorText_inj (hx _ rfl).plain (hy _ rfl).plain h]

/-- A table with one state, one element and one target. -/
private def oneRow (name target : Str) : ParsedDfa := ⟨[c!"a"], [⟨name, true, false, [target]⟩]⟩

/-- **C125** The names must not have blanks: tables built by a program instead of the parser may have different defects with the same message. -/
theorem C125_blanks_false : ¬ ∀ (p q : ParsedDfa) (e f : ParseError), Validate.dfa p = .error e → Validate.dfa q = .error f →
    parseErrorText e = parseErrorText f → e = f := by
  intro h
  exact absurd (h (oneRow c!"y' does not exist (in transition from state 'z" c!"x")
    (oneRow c!"z" c!"x' does not exist (in transition from state 'y") (.transitionDoesNotExist _ _) (.transitionDoesNotExist _ _)
    (by rfl) (by rfl) (by decide +kernel)) (by decide +kernel)

/-! ## Instances -/

private theorem reported_count : Reported (.wrongNumberOfTransitions c!"p" 1 2) :=
  .inl ⟨c!"a b\n-> p p", ⟨[c!"a", c!"b"], [⟨c!"p", true, false, [c!"p"]⟩]⟩, by decide +kernel, by rfl⟩

private theorem reported_target : Reported (.transitionDoesNotExist c!"p" c!"q") :=
  .inr ⟨c!"a\n-> p {q}", ⟨[.element c!"a"], [⟨c!"p", true, false, [[c!"q"]]⟩]⟩, by decide +kernel, by rfl⟩

example : parseErrorText (.wrongNumberOfTransitions c!"p" 1 2) = c!"Wrong number of transitions for state 'p': has 1 expected 2" ∧
    parseErrorText (.transitionDoesNotExist c!"p" c!"q") = c!"State 'q' does not exist (in transition from state 'p')" := by decide +kernel

/-- The two defects are reported with different messages. -/
example : parseErrorText (.wrongNumberOfTransitions c!"p" 1 2) ≠ parseErrorText (.transitionDoesNotExist c!"p" c!"q") :=
  fun h => absurd ((C125_defects _ _ reported_count reported_target).1 h) (by decide)

/-- Quotes, backslashes and line ends in the rest of the text do not confuse the messages. -/
example : NomError.debug (fun c => c.toNat < 128) ⟨c!"\"\\ä\n", .eof⟩ = c!"Error { input: \"\\\"\\\\\\u{e4}\\n\", code: Eof }" := by
  decide +kernel

example (cl : Str → Nat) : ∃ e f, Automata.load cl c!"a\n-> p q" .dfa = .error e ∧ Automata.load cl c!"a\n p p" .dfa = .error f ∧ e.text ≠ f.text := by
  refine ⟨_, _, rfl, rfl, fun h => ?_⟩
  have := (C125_load cl c!"a\n-> p q" c!"a\n p p" .dfa _ _ rfl rfl).1 h
  exact absurd this (by decide +kernel)

example (cl : Str → Nat) (plain : Char → Bool) : ∃ e f, Tester.readInput cl [] .dfa = some (.error e) ∧
    Tester.readInput cl [] .nfa = some (.error f) ∧ e.text plain ≠ f.text plain := by
  refine ⟨_, _, rfl, rfl, fun h => ?_⟩
  have := (C125_equivalence cl plain [] [] .dfa .nfa _ _ rfl rfl).1 h
  exact absurd this (by decide +kernel)

example : (EquivalenceResult.failedToValidate (.wrongNumberOfTransitions c!"p" 1 2)).text ≠ (EquivalenceResult.failedToParse c!"p").text :=
  fun h => by
    have := (C125_verdict _ _ (fun e he => by cases he; exact reported_count) (fun e he => by cases he)).1 h
    cases this

example (plain : Char → Bool) : (Wasm.LoadError.validate (.wrongNumberOfTransitions c!"p" 1 2)).text plain c!"DFA" ≠
    (Wasm.LoadError.validate (.transitionDoesNotExist c!"p" c!"q")).text plain c!"DFA" :=
  fun h => by
    have := (C125_wasm plain _ _ _ (fun e he => by cases he; exact reported_count) (fun e he => by cases he; exact reported_target)).1 h
    cases this

end Dandy
