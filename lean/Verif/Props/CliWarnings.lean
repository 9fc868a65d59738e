import Verif.Model.CliWarnings
import Verif.Props.CliMain
/-!
# The program `dandy`: no warnings about internal errors

Property C88.
-/

namespace Dandy

open Cli Cli.Automata
open Samples

private theorem tester_type {cl : Str → Nat} {o : MinOrd} {file : Str} {args : EquivalenceArgs} {t : Tester}
    (h : Tester.new cl o file args = some (.ok t)) :
    t.testType = args.type ∧ (t.minimized = true → args.type = .dfa) ∧ (args.type = .dfa → t.input.getType = .dfa) ∧
      (args.type ≠ .dfa → t.input.getType = .nfa) := by
  unfold Tester.new at h
  split at h
  · cases h
  · cases h
  · rename_i input _
    have prep : ∀ (a : Automata) (r : Automata × Bool), a.prepareToCompareWith args.type = some r →
        (args.type = .dfa → r.1.getType = .dfa) ∧ (args.type ≠ .dfa → r.1.getType = .nfa) := by
      intro a r hr
      cases ht : args.type <;> rw [ht] at hr
      · unfold prepareToCompareWith intoDfaAutomata at hr
        simp only [Option.bind_eq_bind, Option.pure_def, Option.bind_eq_some_iff] at hr
        obtain ⟨_, _, hr⟩ := hr
        cases hr
        exact ⟨fun _ => rfl, fun hx => absurd rfl hx⟩
      all_goals
        cases hr
        exact ⟨fun hx => (by cases hx), fun _ => rfl⟩
    split at h
    · split at h
      · rename_i _ hd
        simp only [Option.bind_eq_bind, Option.pure_def, Option.bind_eq_some_iff] at h
        obtain ⟨x, _, y, hy, h⟩ := h
        cases h
        exact ⟨rfl, fun _ => hd, (prep _ _ hy).1, (prep _ _ hy).2⟩
      · cases h
    · simp only [Option.bind_eq_bind, Option.pure_def, Option.bind_eq_some_iff] at h
      obtain ⟨y, hy, h⟩ := h
      cases h
      exact ⟨rfl, fun hx => (by cases hx), (prep _ _ hy).1, (prep _ _ hy).2⟩

private theorem loadTest_dfa {cl : Str → Nat} {f : Str} {a : Automata} (h : loadTest cl f .dfa = .ok a) : a.getType = .dfa := by
  unfold loadTest at h
  dsimp only at h
  split at h
  · cases h
  · split at h <;> cases h
    rfl

private theorem test_silent {env : Env} {o : MinOrd} {file : Str} {args : EquivalenceArgs} {t : Tester}
    (h : Tester.new env.cl o file args = some (.ok t)) (path : Str) : t.testWarnings env path = [] := by
  obtain ⟨h1, h2, h3, h4⟩ := tester_type h
  unfold Tester.testWarnings
  split
  · rfl
  · split
    · rfl
    · rename_i a ha
      unfold testWarnings
      rw [h1] at ha
      by_cases hd : args.type = .dfa
      · rw [hd] at ha
        rw [h3 hd, loadTest_dfa ha]
      · have hm : t.minimized = false := by
          cases hm : t.minimized
          · rfl
          · exact absurd (h2 hm) hd
        rw [h4 hd, hm]
        unfold warnMinimizedCheckType warnMinimized
        simp

private theorem compare_silent (env : Env) (args : BinaryOpArgs) (combined : Dfa) : compareWarnings env args combined = [] := by
  unfold compareWarnings
  split
  · rfl
  · split
    · rfl
    · rename_i a _
      unfold testWarnings
      cases a <;> rfl

private theorem binary_silent (h : Host) (out : Option Nat) (w : World) (ord : List (Nat × Nat) → List (Nat × Nat)) (o1 o2 o3 : MinOrd)
    (noLog : Bool) (args : BinaryOpArgs) (op : BinaryOperation) : binaryWarnings h out w ord o1 o2 o3 noLog args op = [] := by
  unfold binaryWarnings
  split
  · simp only [compare_silent]
    rename_i a1 a2 _ _
    generalize hx : (do
      let (d1, l1) ← operand o1 noLog args.minimized 1 a1
      let (d2, l2) ← operand o2 noLog args.minimized 2 a2
      let combined ← (← op.apply ord d1 d2)
      let (combined, l3) ← showCombined o3 noLog op args combined
      let l4 ← enumerateCombined op combined args.enumerate
      return ([] : List Str) : Option (List Str)) = r
    cases r with
    | none => rfl
    | some r =>
      simp only [Option.bind_eq_bind, Option.pure_def, Option.bind_eq_some_iff] at hx
      obtain ⟨_, _, _, _, _, _, _, _, _, _, _, _, hx⟩ := hx
      cases hx
      rfl
  · rfl

/-- **C88** Whatever the files contain, whichever command is run with whichever arguments: while it compares automata, the program prints nothing
to standard error. In particular, whenever it accepts `--minimized`, it does check whether the automata are minimized. -/
theorem C88_no_warnings (h : Host) (out : Option Nat) (w : World) (o : RunOrd) (args : Args) : runWarnings h out w o args = [] := by
  unfold runWarnings
  cases hc : args.command
  all_goals dsimp only [Operation.binaryOperation]
  all_goals try exact binary_silent ..
  unfold equivalenceWarnings
  split
  · rfl
  · split
    · rename_i t ht
      exact List.flatMap_eq_nil_iff.mpr fun path _ => test_silent ht path
    · rfl

/-- **C88** Therefore the lines on standard error are those of `main` (C76): about the output file, and the error of the command. -/
theorem C88_stderr (h : Host) (o : RunOrd) (w : World) (args : Args) : stderrLines h o w args = (main h o w args).map (·.stderr) := by
  unfold stderrLines main
  simp only [C88_no_warnings, List.append_nil]
  generalize runCommand h (openOut h w args.outFile).1 (openOut h w args.outFile).2.1 o args = e
  cases e <;> rfl

private theorem error_prefix {h : Host} {out : Option Nat} {w : World} {o : RunOrd} {args : Args} {e : Effect Str} {t : Str}
    (he : runCommand h out w o args = some e) (ht : e.result = .error t) : ∃ s, t = c!"Error in " ++ s := by
  have key : ∀ (x : Effect Str) (f : Str → Str), (∀ t, ∃ s, f t = c!"Error in " ++ s) → (x.mapErr f).result = .error t → ∃ s, t = c!"Error in " ++ s := by
    intro x f hf hx
    unfold Effect.mapErr at hx
    dsimp only at hx
    split at hx
    · cases hx
    · cases hx
      exact hf _
  unfold runCommand at he
  split at he
  all_goals try unfold runBinary at he
  all_goals simp only [Option.bind_eq_bind, Option.pure_def, Option.bind_eq_some_iff] at he
  all_goals first
    | (obtain ⟨x, _, he⟩ := he; cases he; exact key _ _ (fun t => ⟨_, List.append_assoc c!"Error in " _ _⟩) ht)
    | (obtain ⟨x, _, he⟩ := he; cases he; exact key _ _ (fun t => ⟨_, rfl⟩) ht)
    | (obtain ⟨op, _, x, _, he⟩ := he; cases he
       refine key _ _ (fun t => ⟨op.str ++ c!": " ++ t, ?_⟩) ht
       simp only [List.append_assoc])

/-- **C88** Every line on standard error is one of the two about the output file, or begins with `Error in`; so none is one of the four warnings
of the comparison (two of which ask for a bug report). -/
theorem C88_lines (h : Host) (o : RunOrd) (w : World) (args : Args) (lines : List Str) (hl : stderrLines h o w args = some lines) :
    ∀ l ∈ lines, (∃ msg, l = c!"Error creating output file " ++ msg) ∨ l = c!"Execution will continue but no data will be written to file" ∨
      ∃ msg, l = c!"Error in " ++ msg := by
  unfold stderrLines at hl
  simp only [C88_no_warnings, List.append_nil] at hl
  simp only [Option.bind_eq_bind, Option.pure_def, Option.bind_eq_some_iff] at hl
  obtain ⟨e, he, hl⟩ := hl
  cases hl
  intro l hm
  rcases List.mem_append.mp hm with hm | hm
  · unfold openOut at hm
    split at hm
    · cases hm
    · split at hm
      · cases hm
      · simp only [List.mem_cons, List.not_mem_nil, or_false] at hm
        rcases hm with rfl | rfl
        · exact Or.inl ⟨_, rfl⟩
        · exact Or.inr (Or.inl rfl)
  · right; right
    split at hm
    · cases hm
    · rename_i t ht
      simp only [List.mem_cons, List.not_mem_nil, or_false] at hm
      subst hm
      exact error_prefix he ht

-- a run that tests files, with `--minimized`, and one that compares with a third automaton; one with two kinds of lines on standard error
example : stderrLines host0 runOrd0 world0 ⟨none, true, .equivalence ⟨some .regex, .dfa, true, false, none, c!"ends.re", [c!"min.dfa", c!"./odd.dfa"]⟩⟩ =
    some [] ∧
    stderrLines host0 runOrd0 world0 ⟨none, true, .union { bin0 with second := c!"min.dfa", compareAgainst := some c!"ends.re", comparedType := .regex }⟩ =
    some [] ∧
    stderrLines host0 runOrd0 world0 ⟨some c!"ro", true, .enumerateFile ⟨.nfa, 3, c!"none"⟩⟩ =
    some [c!"Error creating output file denied", c!"Execution will continue but no data will be written to file",
      c!"Error in enumerating file: Error loading file none: gone"] := by decide +kernel

-- the warnings exist: they would be printed if the base of the comparison were an NFA or an expression
example : (Automata.nfa (RegexTree.chr .epsilon).toNfa).testWarnings (.dfa ⟨[], [], 0⟩) true =
      [c!"Minimized option ignored: make sure the base automata is the correct type.",
        c!"This is most likely an internal error; please send a bug report"] ∧
    (Automata.nfa (RegexTree.chr .epsilon).toNfa).testWarnings (.regex (.chr .epsilon)) true =
      [c!"Can only check minimization if the tested type is a DFA"] ∧
    (Automata.regex (.chr .epsilon)).testWarnings (.regex (.chr .epsilon)) false =
      [c!"Testing with Regex as base, this gives poor performance",
        c!"This is most likely an internal error; please send a bug report"] := by decide +kernel

/-! ## Instances of the theorems of this file -/

example := C88_no_warnings host0 (some 3) world0 runOrd0 ⟨some c!"new.dfa", false, .enumerateRegex ⟨3, c!"a*"⟩⟩
example := C88_stderr host0 runOrd0 world0 ⟨some c!"new.dfa", false, .enumerateRegex ⟨3, c!"a*"⟩⟩

end Dandy
