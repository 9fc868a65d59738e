import Verif.Proofs.Clap
import Verif.Props.CliMain
/-!
# Command lines

Property C95.
-/

namespace Dandy

open Cli CommandLine ClapProofs
open Samples
open TableText (Name)

/-- **C95** The program runs with given arguments exactly if the command line is one of the ways to write them: options of the program, the
name of a command, and options and arguments of that command. All other command lines are turned down without running anything. -/
theorem C95_exact (ws : List Str) (args : Args) : Clap.parse ws = some args ↔ ProgramLine ws args :=
  parse_iff ws args

/-- **C95** No command line can be read in two ways. -/
theorem C95_unambiguous (ws : List Str) (args args' : Args) (h : ProgramLine ws args) (h' : ProgramLine ws args') : args = args' := by
  have := (parse_iff ws args').2 h'
  rw [(parse_iff ws args).2 h] at this
  exact Option.some.inj this

/-! ## All arguments can be written -/

private theorem options_append {fl va : List Named} {w w' : List Str} {o o' : List (Str × Str)} (h : Options fl va w o) (h' : Options fl va w' o') :
    Options fl va (w ++ w') (o ++ o') := by
  induction h with
  | nil => exact h'
  | cons w1 o1 ws os hi _ ih =>
    rw [List.append_assoc, List.append_assoc]
    exact Options.cons w1 o1 _ _ hi ih

private theorem options_value {fl va : List Named} (d : Named) (hd : d ∈ va) (x : Option Str) :
    Options fl va (x.toList.map (fun v => c!"--" ++ d.long ++ c!"=" ++ v)) (x.toList.map (fun v => (d.long, v))) := by
  cases x with
  | none => exact Options.nil
  | some v => exact Options.cons _ _ _ _ (Item.longEq d v hd) Options.nil

private theorem options_flag {fl va : List Named} (d : Named) (hd : d ∈ fl) (b : Bool) :
    Options fl va (if b then [c!"--" ++ d.long] else []) (if b then [(d.long, [])] else []) := by
  cases b with
  | false => exact Options.nil
  | true => exact Options.cons _ _ _ _ (Item.flag d hd) Options.nil

private theorem written_options {fl va : List Named} {w : List Str} {o : List (Str × Str)} (h : Options fl va w o) (ps : List Str) :
    Written fl va (w ++ c!"--" :: ps) o ps := by
  induction h with
  | nil => exact Written.rest ps
  | cons w1 o1 ws os hi _ ih =>
    rw [List.append_assoc]
    exact Written.option w1 o1 _ _ _ hi ih

private def typeText : AutomataType → Str
  | .dfa => c!"dfa"
  | .nfa => c!"nfa"
  | .regex => c!"regex"

private theorem typeText_ok (t : AutomataType) : TypeText (typeText t) t := by cases t <;> rfl

private def testTypeText : TestType → Str
  | .lines => c!"lines"
  | .files => c!"files"

private theorem testTypeText_ok (t : TestType) : TestTypeText (testTypeText t) t := by cases t <;> rfl

private def digitsOf (n : Nat) : List Nat := if n = 0 then [0] else Nat.digits 10 n

private def numberText (n : Nat) : Str := (digitsOf n).reverse.map (fun d => Char.ofNat (48 + d))

private theorem numberText_ok {n : Nat} (h : n < 2 ^ 64) : NumberText (numberText n) n := by
  refine ⟨digitsOf n, ?_, ?_, ?_, h, .inl rfl⟩
  · unfold digitsOf
    split
    · simp
    · rename_i hn
      exact Nat.digits_ne_nil_iff_ne_zero.2 hn
  · unfold digitsOf
    split
    · simp
    · intro d hd
      exact Nat.digits_lt_base (by decide) hd
  · unfold digitsOf
    split
    · rename_i hn; rw [hn]; rfl
    · exact Nat.ofDigits_digits 10 n

/-- The arguments that can be given to a command: paths are not empty, and numbers fit in 64 bits. -/
def Givable : Operation → Prop
  | .equivalence a => (∀ p ∈ a.automata :: a.files, p ≠ []) ∧ ∀ n, a.pathLength = some n → n < 2 ^ 64
  | .union a | .intersection a | .difference a | .symmetricDifference a =>
    (∀ p ∈ a.first :: a.second :: a.compareAgainst.toList, p ≠ []) ∧ ∀ n, a.enumerate = some n → n < 2 ^ 64
  | .enumerateRegex a => a.amount < 2 ^ 64
  | .enumerateFile a => a.file ≠ [] ∧ a.amount < 2 ^ 64
  | .testFile a => ∀ p ∈ a.automata :: a.files, p ≠ []

private theorem equivalence_written (a : EquivalenceArgs) (h : Givable (.equivalence a)) : ∃ ws, EquivalenceLine ws a := by
  obtain ⟨it, ty, mi, bo, pl, au, fs⟩ := a
  obtain ⟨h1, h2⟩ := h
  refine ⟨_, _, written_options (options_append (options_value ⟨c!"in-type", some 'i'⟩ (by simp) (it.map typeText)) (options_append
    (options_value ⟨c!"type", some 't'⟩ (by simp) (some (typeText ty))) (options_append (options_flag ⟨c!"minimized", some 'm'⟩ (by simp) mi)
    (options_append (options_flag ⟨c!"bool", some 'b'⟩ (by simp) bo)
      (options_value ⟨c!"path-length", some 'p'⟩ (by simp) (pl.map numberText)))))) (au :: fs), ?_, ?_, .inl ⟨typeText ty, by simp, typeText_ok ty⟩, ?_, ?_, ?_, h1⟩
  · cases it <;> cases mi <;> cases bo <;> cases pl <;> simp [Once]
  · cases it with
    | none => cases mi <;> cases bo <;> cases pl <;> simp [Value]
    | some t => exact ⟨typeText t, by simp, typeText_ok t⟩
  · cases it <;> cases mi <;> cases bo <;> cases pl <;> simp [FlagGiven]
  · cases it <;> cases mi <;> cases bo <;> cases pl <;> simp [FlagGiven]
  · cases pl with
    | none => cases it <;> cases mi <;> cases bo <;> simp [Value]
    | some n => exact ⟨numberText n, by simp, numberText_ok (h2 n rfl)⟩

private theorem binary_written (a : BinaryOpArgs) (h : Givable (.union a)) : ∃ ws, BinaryLine ws a := by
  obtain ⟨ty, st, ct, mi, en, p1, p2, p3⟩ := a
  obtain ⟨h1, h2⟩ := h
  refine ⟨_, _, written_options (options_append (options_value ⟨c!"type", some 't'⟩ (by simp) (some (typeText ty))) (options_append
    (options_value ⟨c!"second-type", some 's'⟩ (by simp) (st.map typeText)) (options_append
    (options_value ⟨c!"compared-type", none⟩ (by simp) (some (typeText ct))) (options_append (options_flag ⟨c!"minimized", some 'm'⟩ (by simp) mi)
      (options_value ⟨c!"enumerate", some 'e'⟩ (by simp) (en.map numberText)))))) (p1 :: p2 :: p3.toList), ?_, .inl ⟨typeText ty, by simp, typeText_ok ty⟩, ?_,
      .inl ⟨typeText ct, by simp, typeText_ok ct⟩, ?_, ?_, h1⟩
  · cases st <;> cases mi <;> cases en <;> simp [Once]
  · cases st with
    | none => cases mi <;> cases en <;> simp [Value]
    | some t => exact ⟨typeText t, by simp, typeText_ok t⟩
  · cases st <;> cases mi <;> cases en <;> simp [FlagGiven]
  · cases en with
    | none => cases st <;> cases mi <;> simp [Value]
    | some n => exact ⟨numberText n, by simp, numberText_ok (h2 n rfl)⟩

private theorem command_written (op : Operation) (h : Givable op) : ∃ name ws, CommandWords name ws op := by
  cases op with
  | equivalence a => exact let ⟨ws, hw⟩ := equivalence_written a h; ⟨_, ws, rfl, hw⟩
  | union a => exact let ⟨ws, hw⟩ := binary_written a h; ⟨_, ws, rfl, hw⟩
  | intersection a => exact let ⟨ws, hw⟩ := binary_written a h; ⟨_, ws, rfl, hw⟩
  | difference a => exact let ⟨ws, hw⟩ := binary_written a h; ⟨_, ws, rfl, hw⟩
  | symmetricDifference a => exact let ⟨ws, hw⟩ := binary_written a h; ⟨_, ws, rfl, hw⟩
  | enumerateRegex a =>
    exact ⟨_, _, rfl, _, written_options (options_value ⟨c!"amount", some 'n'⟩ (by simp) (some (numberText a.amount))) [a.regex], by simp [Once],
      .inl ⟨_, by simp, numberText_ok h⟩⟩
  | enumerateFile a =>
    exact ⟨_, _, rfl, _, written_options (options_append (options_value ⟨c!"type", none⟩ (by simp) (some (typeText a.type)))
      (options_value ⟨c!"amount", some 'a'⟩ (by simp) (some (numberText a.amount)))) [a.file], by simp [Once],
      .inl ⟨_, by simp, typeText_ok _⟩, .inl ⟨_, by simp, numberText_ok h.2⟩, h.1⟩
  | testFile a =>
    exact ⟨_, _, rfl, _, written_options (options_append (options_value ⟨c!"type", none⟩ (by simp) (some (typeText a.type)))
      (options_value ⟨c!"test-type", some 't'⟩ (by simp) (some (testTypeText a.testType)))) (a.automata :: a.files), by simp [Once],
      .inl ⟨_, by simp, typeText_ok _⟩, .inl ⟨_, by simp, testTypeText_ok _⟩, h⟩

/-- **C95** Everything can be asked for: all arguments of all commands can be given on the command line, including files and expressions that begin
with a dash (only empty paths, and numbers that do not fit in 64 bits, cannot). -/
theorem C95_expressible (args : Args) : (∃ ws, Clap.parse ws = some args) ↔ args.outFile ≠ some [] ∧ Givable args.command := by
  constructor
  · rintro ⟨ws, h⟩
    obtain ⟨top, os, name, rest, rfl, _, ho, h1, _, h2⟩ := (parse_iff ws args).1 h
    obtain ⟨out, nl, op⟩ := args
    have num : ∀ {os' : List (Str × Str)} {nm : Str} {x : Option Nat}, Value os' nm NumberText x → ∀ n, x = some n → n < 2 ^ 64 := by
      rintro os' nm _ hv n rfl
      obtain ⟨v, _, ds, _, _, _, hn, _⟩ := hv
      exact hn
    have num' : ∀ {os' : List (Str × Str)} {nm : Str} {d n : Nat}, d < 2 ^ 64 → ValueOr os' nm NumberText d n → n < 2 ^ 64 := by
      rintro os' nm d n hd (hv | ⟨_, rfl⟩)
      · exact num hv n rfl
      · exact hd
    have bin : ∀ {a : BinaryOpArgs}, BinaryLine rest a → Givable (.union a) := by
      rintro a ⟨_, _, _, _, _, _, _, e1, e2⟩
      exact ⟨e2, num e1⟩
    refine ⟨?_, ?_⟩
    · rintro rfl
      obtain ⟨v, _, _, hv⟩ := h1
      exact hv rfl
    · cases op with
      | equivalence a => obtain ⟨_, _, _, _, _, _, _, _, e1, e2⟩ := h2; exact ⟨e2, num e1⟩
      | union a => exact bin h2.2
      | intersection a => exact bin h2.2
      | difference a => exact bin h2.2
      | symmetricDifference a => exact bin h2.2
      | enumerateRegex a => obtain ⟨_, _, _, _, e1⟩ := h2; exact num' (by decide) e1
      | enumerateFile a => obtain ⟨_, _, _, _, _, e1, e2⟩ := h2; exact ⟨e2, num' (by decide) e1⟩
      | testFile a => obtain ⟨_, _, _, _, _, _, e1⟩ := h2; exact e1
  · rintro ⟨h1, h2⟩
    obtain ⟨out, nl, op⟩ := args
    obtain ⟨name, rest, hw⟩ := command_written op h2
    refine ⟨_, (parse_iff _ _).2 ⟨_, _, name, rest, rfl, options_append (options_value ⟨c!"out", some 'o'⟩ (by simp) out)
      (options_flag ⟨c!"less-logs", none⟩ (by simp) nl), ?_, ?_, ?_, hw⟩⟩
    · cases out <;> cases nl <;> simp [Once]
    · cases out with
      | none => cases nl <;> simp [Value]
      | some p => exact ⟨p, by simp, rfl, fun hp => h1 (by rw [← hp])⟩
    · cases out <;> cases nl <;> simp [FlagGiven]

/-! ## Order -/

private theorem value_perm {α : Type} {os os' : List (Str × Str)} (h : ∀ o, o ∈ os ↔ o ∈ os') {name : Str} {text : Str → α → Prop} {x : Option α} :
    Value os name text x ↔ Value os' name text x := by
  unfold Value
  cases x <;> simp only [h]

private theorem valueOr_perm {α : Type} {os os' : List (Str × Str)} (h : ∀ o, o ∈ os ↔ o ∈ os') {name : Str} {text : Str → α → Prop} {d x : α} :
    ValueOr os name text d x ↔ ValueOr os' name text d x := by
  unfold ValueOr
  rw [value_perm h, value_perm h]

private theorem given_perm {os os' : List (Str × Str)} (h : ∀ o, o ∈ os ↔ o ∈ os') {name : Str} {b : Bool} :
    FlagGiven os name b ↔ FlagGiven os' name b := by
  unfold FlagGiven
  simp only [h]

private theorem once_perm {os os' : List (Str × Str)} (h : os.Perm os') : Once os ↔ Once os' := (h.map Prod.fst).nodup_iff

/-- The flags and the options with a value of each command. -/
def commandOptions (name : Str) : List Named × List Named :=
  if name = c!"equivalence" then ([⟨c!"minimized", some 'm'⟩, ⟨c!"bool", some 'b'⟩],
    [⟨c!"in-type", some 'i'⟩, ⟨c!"type", some 't'⟩, ⟨c!"path-length", some 'p'⟩])
  else if name = c!"enumerate-regex" then ([], [⟨c!"amount", some 'n'⟩])
  else if name = c!"enumerate" then ([], [⟨c!"type", none⟩, ⟨c!"amount", some 'a'⟩])
  else if name = c!"test-file" then ([], [⟨c!"type", none⟩, ⟨c!"test-type", some 't'⟩])
  else ([⟨c!"minimized", some 'm'⟩], [⟨c!"type", some 't'⟩, ⟨c!"second-type", some 's'⟩, ⟨c!"compared-type", none⟩, ⟨c!"enumerate", some 'e'⟩])

/-- What is written in the words of a command is known from the parser of its options. -/
private theorem written_unique {ds : List Clap.Opt} {fl va : List Named} (hd : Declares ds fl va) {ws : List Str} {os os' : List (Str × Str)}
    {ps ps' : List Str} (h : Written fl va ws os ps) (h' : Written fl va ws os' ps') : os = os' ∧ ps = ps' := by
  have h1 := (scan_iff hd).2 h
  rw [(scan_iff hd).2 h'] at h1
  cases h1
  exact ⟨rfl, rfl⟩

private theorem reorder {name : Str} {ws ws' : List Str} {os os' : List (Str × Str)} {ps : List Str}
    (h : Written (commandOptions name).1 (commandOptions name).2 ws os ps) (h' : Written (commandOptions name).1 (commandOptions name).2 ws' os' ps)
    (hp : os.Perm os') {op : Operation} (hc : CommandWords name ws op) : CommandWords name ws' op := by
  have hm : ∀ o, o ∈ os ↔ o ∈ os' := fun o => hp.mem_iff
  have bin : ∀ {a : BinaryOpArgs}, Written [⟨c!"minimized", some 'm'⟩] [⟨c!"type", some 't'⟩, ⟨c!"second-type", some 's'⟩, ⟨c!"compared-type", none⟩,
      ⟨c!"enumerate", some 'e'⟩] ws os ps → Written [⟨c!"minimized", some 'm'⟩] [⟨c!"type", some 't'⟩, ⟨c!"second-type", some 's'⟩,
      ⟨c!"compared-type", none⟩, ⟨c!"enumerate", some 'e'⟩] ws' os' ps → BinaryLine ws a → BinaryLine ws' a := by
    rintro a h h' ⟨o, w, g1, g2, g3, g4, g5, g6, g7⟩
    obtain ⟨rfl, rfl⟩ := written_unique binary_declares h w
    exact ⟨os', h', (once_perm hp).1 g1, (valueOr_perm hm).1 g2, (value_perm hm).1 g3, (valueOr_perm hm).1 g4, (given_perm hm).1 g5,
      (value_perm hm).1 g6, g7⟩
  cases op with
  | equivalence a =>
    obtain ⟨rfl, o, w, g1, g2, g3, g4, g5, g6, g7⟩ := hc
    obtain ⟨rfl, rfl⟩ := written_unique equivalence_declares h w
    exact ⟨rfl, os', h', (once_perm hp).1 g1, (value_perm hm).1 g2, (valueOr_perm hm).1 g3, (given_perm hm).1 g4, (given_perm hm).1 g5,
      (value_perm hm).1 g6, g7⟩
  | union a => obtain ⟨rfl, hc⟩ := hc; exact ⟨rfl, bin h h' hc⟩
  | intersection a => obtain ⟨rfl, hc⟩ := hc; exact ⟨rfl, bin h h' hc⟩
  | difference a => obtain ⟨rfl, hc⟩ := hc; exact ⟨rfl, bin h h' hc⟩
  | symmetricDifference a => obtain ⟨rfl, hc⟩ := hc; exact ⟨rfl, bin h h' hc⟩
  | enumerateRegex a =>
    obtain ⟨rfl, o, w, g1, g2⟩ := hc
    obtain ⟨rfl, rfl⟩ := written_unique enumerateRegex_declares h w
    exact ⟨rfl, os', h', (once_perm hp).1 g1, (valueOr_perm hm).1 g2⟩
  | enumerateFile a =>
    obtain ⟨rfl, o, w, g1, g2, g3, g4⟩ := hc
    obtain ⟨rfl, rfl⟩ := written_unique enumerateFile_declares h w
    exact ⟨rfl, os', h', (once_perm hp).1 g1, (valueOr_perm hm).1 g2, (valueOr_perm hm).1 g3, g4⟩
  | testFile a =>
    obtain ⟨rfl, o, w, g1, g2, g3, g4⟩ := hc
    obtain ⟨rfl, rfl⟩ := written_unique testFile_declares h w
    exact ⟨rfl, os', h', (once_perm hp).1 g1, (valueOr_perm hm).1 g2, (valueOr_perm hm).1 g3, g4⟩

/-- **C95** The order of options, the way each is written, and where they stand among the other arguments does not matter: two command lines that give the
same options (in any order) and the same other arguments (in the same order) do the same. -/
theorem C95_order (top top' : List Str) (t t' : List (Str × Str)) (name : Str) (ws ws' : List Str) (os os' : List (Str × Str)) (ps : List Str)
    (ht : ProgramOptions top t) (ht' : ProgramOptions top' t') (htp : t.Perm t') (hn : ¬ Dashed name)
    (h : Written (commandOptions name).1 (commandOptions name).2 ws os ps)
    (h' : Written (commandOptions name).1 (commandOptions name).2 ws' os' ps) (hp : os.Perm os') :
    Clap.parse (top ++ name :: ws) = Clap.parse (top' ++ name :: ws') := by
  have main : ∀ (top top' : List Str) (t t' : List (Str × Str)) (ws ws' : List Str) (os os' : List (Str × Str)),
      ProgramOptions top t → ProgramOptions top' t' → t.Perm t' → Written (commandOptions name).1 (commandOptions name).2 ws os ps →
      Written (commandOptions name).1 (commandOptions name).2 ws' os' ps → os.Perm os' → ∀ args,
      Clap.parse (top ++ name :: ws) = some args → Clap.parse (top' ++ name :: ws') = some args := by
    intro top top' t t' ws ws' os os' ht ht' htp h h' hp args ha
    obtain ⟨top1, o1, name1, rest1, e, g1, g2, g3, g4, g5⟩ := (parse_iff _ _).1 ha
    have s1 := scanTop_complete top_declares ht hn ws
    have s2 := scanTop_complete top_declares g1 (command_name g5) rest1
    rw [e, s2] at s1
    cases s1
    have hm : ∀ o, o ∈ t ↔ o ∈ t' := fun o => htp.mem_iff
    exact (parse_iff _ _).2 ⟨top', t', name, ws', rfl, ht', (once_perm htp).1 g2, (value_perm hm).1 g3, (given_perm hm).1 g4, reorder h h' hp g5⟩
  cases h1 : Clap.parse (top ++ name :: ws) with
  | some args => exact (main top top' t t' ws ws' os os' ht ht' htp h h' hp args h1).symm
  | none =>
    cases h2 : Clap.parse (top' ++ name :: ws') with
    | none => rfl
    | some args =>
      rw [main top' top t' t ws' ws os' os ht' ht htp.symm h' h hp.symm args h2] at h1
      cases h1

/-! ## Pitfalls -/

private theorem scan_unknown {ds : List Clap.Opt} {x : Str} (hx : Clap.isOption x = true) (hx' : x ≠ ['-', '-']) (hr : Clap.readOption ds x = none)
    (pre post : List Str) (hp : c!"--" ∉ pre) (p : Option Str) : Clap.scan ds p (pre ++ x :: post) = none := by
  induction pre generalizing p with
  | nil =>
    rw [List.nil_append]
    cases p with
    | some _ => rw [Clap.scan, if_pos hx]
    | none => rw [Clap.scan, if_neg hx', if_pos hx, hr]; rfl
  | cons w pre ih =>
    simp only [List.mem_cons, not_or] at hp
    rw [List.cons_append]
    cases p with
    | some _ =>
      rw [Clap.scan, ih hp.2]
      split <;> rfl
    | none =>
      rw [Clap.scan, if_neg (fun h => hp.1 h.symm), ih hp.2]
      split
      · cases Clap.readOption ds w with
        | none => rfl
        | some o => rw [Option.bind_some, ih hp.2]; rfl
      · rfl

/-- **C95** The options of the program must stand before the command: after it (and before `--`) they are turned down. -/
theorem C95_program_options_first (top : List Str) (t : List (Str × Str)) (ht : ProgramOptions top t) (name : Str) (hn : ¬ Dashed name)
    (pre post : List Str) (hp : c!"--" ∉ pre) (x : Str)
    (hx : x = c!"--less-logs" ∨ x = c!"--out" ∨ (∃ v, x = c!"--out=" ++ v) ∨ ∃ v, x = c!"-o" ++ v) :
    Clap.parse (top ++ name :: (pre ++ x :: post)) = none := by
  cases ha : Clap.parse (top ++ name :: (pre ++ x :: post)) with
  | none => rfl
  | some args =>
    exfalso
    obtain ⟨top1, o1, name1, rest1, e, g1, _, _, _, g5⟩ := (parse_iff _ _).1 ha
    have s1 := scanTop_complete top_declares ht hn (pre ++ x :: post)
    have s2 := scanTop_complete top_declares g1 (command_name g5) rest1
    rw [e, s2] at s1
    cases s1
    have hx1 : Clap.isOption x = true ∧ x ≠ ['-', '-'] := by
      rcases hx with rfl | rfl | ⟨v, rfl⟩ | ⟨v, rfl⟩
      · exact ⟨rfl, by decide⟩
      · exact ⟨rfl, by decide⟩
      · exact ⟨rfl, by simp⟩
      · exact ⟨rfl, by simp⟩
    have key : ∀ {ds : List Clap.Opt} {fl va : List Named} {os : List (Str × Str)} {ps : List Str}, Declares ds fl va →
        (∀ d ∈ ds, d.long ≠ c!"less-logs" ∧ d.long ≠ c!"out" ∧ d.short ≠ some 'o') → ¬ Written fl va (pre ++ x :: post) os ps := by
      intro ds fl va os ps hd hds hw
      have h1 := (scan_iff hd).2 hw
      have hl1 : ds.find? (fun d => d.long = c!"less-logs") = none := List.find?_eq_none.2 (fun d hm => by simpa using (hds d hm).1)
      have hl2 : ds.find? (fun d => d.long = c!"out") = none := List.find?_eq_none.2 (fun d hm => by simpa using (hds d hm).2.1)
      have hl3 : ds.find? (fun d => d.short = some 'o') = none := List.find?_eq_none.2 (fun d hm => by simpa using (hds d hm).2.2)
      rw [scan_unknown hx1.1 hx1.2 ?_ pre post hp none] at h1
      · cases h1
      · rcases hx with rfl | rfl | ⟨v, rfl⟩ | ⟨v, rfl⟩
        · change Clap.readLong ds c!"less-logs" = none
          unfold Clap.readLong
          rw [splitEq_none (by decide), hl1]
        · change Clap.readLong ds c!"out" = none
          unfold Clap.readLong
          rw [splitEq_none (by decide), hl2]
        · change Clap.readLong ds (c!"out" ++ '=' :: v) = none
          unfold Clap.readLong
          rw [splitEq_some (by decide), hl2]
        · change Clap.readShort ds ('o' :: v) = none
          rw [Clap.readShort, hl3]
    cases hop : args.command with
    | equivalence a => rw [hop] at g5; obtain ⟨_, _, w, _⟩ := g5; exact key equivalence_declares (by decide +kernel) w
    | union a => rw [hop] at g5; obtain ⟨_, _, w, _⟩ := g5; exact key binary_declares (by decide +kernel) w
    | intersection a => rw [hop] at g5; obtain ⟨_, _, w, _⟩ := g5; exact key binary_declares (by decide +kernel) w
    | difference a => rw [hop] at g5; obtain ⟨_, _, w, _⟩ := g5; exact key binary_declares (by decide +kernel) w
    | symmetricDifference a => rw [hop] at g5; obtain ⟨_, _, w, _⟩ := g5; exact key binary_declares (by decide +kernel) w
    | enumerateRegex a => rw [hop] at g5; obtain ⟨_, _, w, _⟩ := g5; exact key enumerateRegex_declares (by decide +kernel) w
    | enumerateFile a => rw [hop] at g5; obtain ⟨_, _, w, _⟩ := g5; exact key enumerateFile_declares (by decide +kernel) w
    | testFile a => rw [hop] at g5; obtain ⟨_, _, w, _⟩ := g5; exact key testFile_declares (by decide +kernel) w

private theorem no_command {name : Str} (hn : ¬ Dashed name) {rest : List Str} (h : ∀ op, ¬ CommandWords name rest op) : Clap.parse (name :: rest) = none := by
  cases ha : Clap.parse (name :: rest) with
  | none => rfl
  | some args =>
    obtain ⟨top1, o1, name1, rest1, e, g1, _, _, _, g5⟩ := (parse_iff _ _).1 ha
    have s1 := scanTop_complete top_declares Options.nil hn rest
    have s2 := scanTop_complete top_declares g1 (command_name g5) rest1
    rw [List.nil_append, e, s2] at s1
    cases s1
    exact absurd g5 (h _)

private theorem parse_command {name : Str} {rest : List Str} {op : Operation} (h : CommandWords name rest op) :
    Clap.parse (name :: rest) = some ⟨none, false, op⟩ := by
  refine (parse_iff _ _).2 ⟨[], [], name, rest, rfl, Options.nil, ?_, ?_, ?_, h⟩
  · simp [Once]
  · simp [Value]
  · simp [FlagGiven]

/-- **C95** An expression given to `enumerate-regex` as a single argument is taken literally (also an empty one, or just a dash), exactly if it does not
begin with a dash followed by something; after `--` every expression is. -/
theorem C95_regex_argument (r : Str) :
    (¬ Dashed r → Clap.parse [c!"enumerate-regex", r] = some ⟨none, false, .enumerateRegex ⟨20, r⟩⟩) ∧
    (Dashed r → Clap.parse [c!"enumerate-regex", r] = none) ∧
    Clap.parse [c!"enumerate-regex", c!"--", r] = some ⟨none, false, .enumerateRegex ⟨20, r⟩⟩ := by
  have none_given : ValueOr [] c!"amount" NumberText 20 20 := .inr ⟨by simp [Value], rfl⟩
  refine ⟨?_, ?_, ?_⟩
  · intro hr
    exact parse_command ⟨rfl, [], Written.argument r [] [] [] hr Written.nil, by simp [Once], none_given⟩
  · intro hr
    refine no_command (by rw [← isOption_iff]; decide) ?_
    intro op hop
    cases op with
    | enumerateRegex a =>
      obtain ⟨_, os, hw, _⟩ := hop
      have h1 := (scan_iff enumerateRegex_declares).2 hw
      rw [Clap.scan] at h1
      split at h1
      · cases h1
      · rw [if_pos ((isOption_iff r).2 hr)] at h1
        obtain ⟨o, h2, h3⟩ := Option.bind_eq_some_iff.1 h1
        obtain ⟨q, h4, h5⟩ := Option.map_eq_some_iff.1 h3
        unfold Clap.scan at h4
        split at h4
        · cases h4; cases h5
        · cases h4
    | equivalence a => exact absurd hop.1 (by decide)
    | union a => exact absurd hop.1 (by decide)
    | intersection a => exact absurd hop.1 (by decide)
    | difference a => exact absurd hop.1 (by decide)
    | symmetricDifference a => exact absurd hop.1 (by decide)
    | enumerateFile a => exact absurd hop.1 (by decide)
    | testFile a => exact absurd hop.1 (by decide)
  · exact parse_command ⟨rfl, [], Written.rest [r], by simp [Once], none_given⟩

/-- **C95** The letter `t` is not the type of the automaton for all commands: for `equivalence` and the operations it is, but `test-file -t nfa …` and
`enumerate -t nfa …` are turned down, whatever follows. -/
theorem C95_letter_t (rest : List Str) (t : AutomataType) (v : Str) (hv : TypeText v t) :
    Clap.parse (c!"test-file" :: c!"-t" :: v :: rest) = none ∧ Clap.parse (c!"enumerate" :: c!"-t" :: v :: rest) = none := by
  have hnd : ¬ Dashed v := by
    rw [← isOption_iff]
    cases t <;> (cases hv; decide)
  constructor
  · refine no_command (by rw [← isOption_iff]; decide) ?_
    intro op hop
    cases op with
    | testFile a =>
      obtain ⟨_, os, hw, ho, _, h2, _⟩ := hop
      have h1 := (scan_iff testFile_declares).2 hw
      have hi : Item [] [⟨c!"type", none⟩, ⟨c!"test-type", some 't'⟩] [c!"-t", v] [(c!"test-type", v)] :=
        Item.letterNext [] [] ⟨c!"test-type", some 't'⟩ 't' v List.Forall₂.nil (by simp) rfl hnd
      have h3 := scan_item testFile_declares hi rest
      rw [List.cons_append, List.cons_append, List.nil_append] at h3
      rw [h3] at h1
      obtain ⟨q, _, h5⟩ := Option.map_eq_some_iff.1 h1
      simp only [Prod.mk.injEq] at h5
      obtain ⟨rfl, _⟩ := h5
      rcases h2 with ⟨v', h6, h7⟩ | ⟨h6, _⟩
      · have e1 := (lookup_iff ho c!"test-type" v').2 h6
        have e2 := (lookup_iff ho c!"test-type" v).2 (by simp)
        rw [e1] at e2
        cases e2
        revert h7
        cases t <;> (cases hv; cases a.testType <;> simp [TestTypeText])
      · exact h6 v (by simp)
    | equivalence a => exact absurd hop.1 (by decide)
    | union a => exact absurd hop.1 (by decide)
    | intersection a => exact absurd hop.1 (by decide)
    | difference a => exact absurd hop.1 (by decide)
    | symmetricDifference a => exact absurd hop.1 (by decide)
    | enumerateFile a => exact absurd hop.1 (by decide)
    | enumerateRegex a => exact absurd hop.1 (by decide)
  · refine no_command (by rw [← isOption_iff]; decide) ?_
    intro op hop
    cases op with
    | enumerateFile a =>
      obtain ⟨_, os, hw, _⟩ := hop
      have h1 := (scan_iff enumerateFile_declares).2 hw
      have h2 := scan_unknown (ds := Clap.enumerateFileOpts) (x := c!"-t") (by decide) (by decide) (by decide +kernel) [] (v :: rest) (by simp) none
      rw [List.nil_append] at h2
      rw [h2] at h1
      cases h1
    | equivalence a => exact absurd hop.1 (by decide)
    | union a => exact absurd hop.1 (by decide)
    | intersection a => exact absurd hop.1 (by decide)
    | difference a => exact absurd hop.1 (by decide)
    | symmetricDifference a => exact absurd hop.1 (by decide)
    | testFile a => exact absurd hop.1 (by decide)
    | enumerateRegex a => exact absurd hop.1 (by decide)

/-! ## Documented usage -/

private theorem written_arguments {fl va : List Named} (ps : List Str) (h : ∀ p ∈ ps, ¬ Dashed p) : Written fl va ps [] ps := by
  induction ps with
  | nil => exact Written.nil
  | cons p ps ih => exact Written.argument p ps [] ps (h p (by simp)) (ih (fun q hq => h q (by simp [hq])))

/-- **C95** The examples in the source (dandy-cli/src/main.rs:19-20), for any files: the types are the ones the file names suggest. -/
theorem C95_documented (automata : Str) (files : List Str) (h : ∀ p ∈ automata :: files, p ≠ [] ∧ ¬ Dashed p) :
    Clap.parse (c!"equivalence" :: automata :: files) = some ⟨none, false, .equivalence ⟨none, .dfa, false, false, none, automata, files⟩⟩ ∧
    Clap.parse (c!"equivalence" :: c!"--in-type" :: c!"nfa" :: c!"--minimized" :: automata :: files) =
      some ⟨none, false, .equivalence ⟨some .nfa, .dfa, true, false, none, automata, files⟩⟩ := by
  have hw := fun fl va => written_arguments (fl := fl) (va := va) (automata :: files) (fun p hp => (h p hp).2)
  constructor
  · refine parse_command ⟨rfl, [], hw _ _, ?_, ?_, .inr ⟨?_, rfl⟩, ?_, ?_, ?_, fun p hp => (h p hp).1⟩
    · simp [Once]
    · simp [Value]
    · simp [Value]
    · simp [FlagGiven]
    · simp [FlagGiven]
    · simp [Value]
  · have hd : ¬ Dashed c!"nfa" := by rw [← isOption_iff]; decide
    have w1 := Written.option _ _ _ _ _ (Item.flag (flags := [⟨c!"minimized", some 'm'⟩, ⟨c!"bool", some 'b'⟩])
      (valued := [⟨c!"in-type", some 'i'⟩, ⟨c!"type", some 't'⟩, ⟨c!"path-length", some 'p'⟩]) ⟨c!"minimized", some 'm'⟩ (by simp)) (hw _ _)
    have w2 := Written.option _ _ _ _ _ (Item.long ⟨c!"in-type", some 'i'⟩ c!"nfa" (by simp) hd) w1
    refine parse_command ⟨rfl, _, w2, ?_, ?_, .inr ⟨?_, rfl⟩, ?_, ?_, ?_, fun p hp => (h p hp).1⟩
    · simp [Once]
    · exact ⟨c!"nfa", by simp, rfl⟩
    · simp [Value]
    · simp [FlagGiven]
    · simp [FlagGiven]
    · simp [Value]

/-- The names of the operations on the command line. -/
def operationName : BinaryOperation → Str
  | .union => c!"union"
  | .intersection => c!"intersection"
  | .difference => c!"difference"
  | .symmetricDifference => c!"symmetric-difference"

/-- **C95** Two command lines in a row: `dandy --out f union a b` (or another operation; `a` and `b` contain DFAs) and
`dandy --less-logs enumerate -a n f`. The second prints the first `n` words of the combined language. -/
theorem C95_pipeline (h : Host) (hcl : Segmentation h.cl) (o o' : RunOrd) (ho : o.Valid) (ho' : o'.Valid) (w : World) (out a b number : Str) (n : Nat)
    (op : BinaryOperation) (hp : ∀ p ∈ [out, a, b], p ≠ [] ∧ ¬ Dashed p) (hnum : NumberText number n) (hc : h.createError out = none)
    (hf1 : w.file a ≠ w.file out) (hf2 : w.file b ≠ w.file out) (d1 d2 : Automata) (h1 : Cli.Contains h w a .dfa d1)
    (h2 : Cli.Contains h w b .dfa d2) (hs : SameElems d1.elems d2.elems) :
    ∃ args args' r r' al ws, Clap.parse [c!"--out", out, operationName op, a, b] = some args ∧ main h o w args = some r ∧
      Clap.parse [c!"--less-logs", c!"enumerate", c!"-a", number, out] = some args' ∧ main h o' r.world args' = some r' ∧
      d1.HasAlphabet al ∧ FirstWords al (fun x => op.Combine (d1.Lang x) (d2.Lang x)) n ws ∧ r'.stdout = printed (ws.map shown) ∧ r'.stderr = [] := by
  obtain ⟨r, r', al, ws, k1, k2, k3, k4, k5, k6⟩ := C78_pipeline h hcl o o' ho ho' w out false n ⟨.dfa, none, .dfa, false, none, a, b, none⟩ op hc hf1 hf2
    rfl rfl d1 d2 h1 h2 hs (.inl rfl)
  have hbin : BinaryLine [a, b] ⟨.dfa, none, .dfa, false, none, a, b, none⟩ := by
    refine ⟨[], written_arguments _ ?_, ?_, .inr ⟨?_, rfl⟩, ?_, .inr ⟨?_, rfl⟩, ?_, ?_, ?_⟩
    · intro p hp'
      refine (hp p ?_).2
      simp only [List.mem_cons, List.not_mem_nil, or_false] at hp' ⊢
      exact .inr hp'
    · simp [Once]
    · simp [Value]
    · simp [Value]
    · simp [Value]
    · simp [FlagGiven]
    · simp [Value]
    · intro p hp'
      refine (hp p ?_).1
      simp only [Option.toList, List.mem_cons, List.not_mem_nil, or_false] at hp' ⊢
      exact .inr hp'
  have p1 : Clap.parse [c!"--out", out, operationName op, a, b] = some ⟨some out, false, op.command ⟨.dfa, none, .dfa, false, none, a, b, none⟩⟩ := by
    refine (parse_iff _ _).2 ⟨[c!"--out", out], _, operationName op, [a, b], rfl, Options.cons [c!"--out", out] _ [] [] (Item.long ⟨c!"out", some 'o'⟩ out (by simp)
      (hp out (by simp)).2) Options.nil, ?_, ?_, ?_, ?_⟩
    · simp [Once]
    · exact ⟨out, by simp, rfl, (hp out (by simp)).1⟩
    · simp [FlagGiven]
    · cases op <;> exact ⟨rfl, hbin⟩
  have hnd : ¬ Dashed number := by
    obtain ⟨ds, e1, e2, _, _, e3⟩ := hnum
    rintro ⟨rest, f1, f2⟩
    rcases e3 with e3 | e3
    · have : '-' ∈ ds.reverse.map (fun d => Char.ofNat (48 + d)) := by rw [← e3, f2]; simp
      simp only [List.mem_map, List.mem_reverse] at this
      obtain ⟨d, g1, g2⟩ := this
      have := (digit_char (e2 d g1)).1
      rw [g2] at this
      exact absurd this (by decide)
    · rw [f2] at e3
      cases e3
  have p2 : Clap.parse [c!"--less-logs", c!"enumerate", c!"-a", number, out] = some ⟨none, true, .enumerateFile ⟨.dfa, n, out⟩⟩ := by
    refine (parse_iff _ _).2 ⟨[c!"--less-logs"], _, c!"enumerate", [c!"-a", number, out], rfl, Options.cons [c!"--less-logs"] _ [] [] (Item.flag
      ⟨c!"less-logs", none⟩ (by simp)) Options.nil, ?_, ?_, ?_, rfl, _, Written.option [c!"-a", number] _ [out] [] [out]
      (Item.letterNext [] [] ⟨c!"amount", some 'a'⟩ 'a' number List.Forall₂.nil (by simp) rfl hnd)
      (Written.argument out [] [] [] (hp out (by simp)).2 Written.nil), ?_, .inr ⟨?_, rfl⟩, .inl ⟨number, ?_, hnum⟩, (hp out (by simp)).1⟩
    · simp [Once]
    · simp [Value]
    · simp [FlagGiven]
    · simp [Once]
    · simp [Value]
    · simp
  exact ⟨_, _, r, r', al, ws, p1, k1, p2, k2, k3, k4, k5, k6⟩

/-! ## Examples -/

example : Clap.parse [c!"-o", c!"x", c!"symmetric-difference", c!"-mtnfa", c!"a", c!"-s=regex", c!"b", c!"--enumerate", c!"+007", c!"c"] =
    some ⟨some c!"x", false, .symmetricDifference ⟨.nfa, some .regex, .dfa, true, some 7, c!"a", c!"b", some c!"c"⟩⟩ := by rfl

example : Clap.parse [c!"equivalence", c!"-bmp3", c!"a", c!"--", c!"-x", c!"--out"] =
    some ⟨none, false, .equivalence ⟨none, .dfa, true, true, some 3, c!"a", [c!"-x", c!"--out"]⟩⟩ := by rfl

example : Clap.parse [c!"enumerate-regex", c!"-"] = some ⟨none, false, .enumerateRegex ⟨20, c!"-"⟩⟩ ∧
    Clap.parse [c!"enumerate-regex", c!"-a"] = none ∧
    Clap.parse [c!"enumerate-regex", c!"--", c!"-a"] = some ⟨none, false, .enumerateRegex ⟨20, c!"-a"⟩⟩ := ⟨by rfl, by rfl, by rfl⟩

-- turned down: no command, an unknown one, options of the program behind it, options given twice, missing or superfluous arguments, wrong values
example : [[], [c!"join", c!"a", c!"b"], [c!"union", c!"a", c!"b", c!"--less-logs"], [c!"union", c!"-t", c!"dfa", c!"a", c!"--type=dfa", c!"b"],
    [c!"union", c!"a"], [c!"union", c!"a", c!"b", c!"c", c!"d"], [c!"union", c!"-tDFA", c!"a", c!"b"], [c!"enumerate", c!"-a", c!"-1", c!"f"],
    [c!"enumerate", c!"-a18446744073709551616", c!"f"], [c!"--out="], [c!"--out=", c!"enumerate", c!"f"], [c!"enumerate", c!""],
    [c!"--less-logs=true", c!"enumerate", c!"f"], [c!"--help"]].all (fun ws => (Clap.parse ws).isNone) = true := by decide +kernel

-- the hypotheses can be met
example : ProgramOptions [c!"--less-logs", c!"-ox"] [(c!"less-logs", []), (c!"out", c!"x")] ∧
    Written (commandOptions c!"union").1 (commandOptions c!"union").2 [c!"-mtnfa", c!"a", c!"b"] [(c!"minimized", []), (c!"type", c!"nfa")] [c!"a", c!"b"] ∧
    Written (commandOptions c!"union").1 (commandOptions c!"union").2 [c!"a", c!"--type", c!"nfa", c!"b", c!"--minimized"]
      [(c!"type", c!"nfa"), (c!"minimized", [])] [c!"a", c!"b"] :=
  ⟨Options.cons [c!"--less-logs"] _ _ _ (Item.flag ⟨c!"less-logs", none⟩ (by simp)) (Options.cons [c!"-ox"] _ _ _
    (Item.letterValue [] [] ⟨c!"out", some 'o'⟩ 'o' c!"x" List.Forall₂.nil (by simp) rfl (by simp) (by decide)) Options.nil),
    (scan_iff binary_declares).1 (by decide +kernel), (scan_iff binary_declares).1 (by decide +kernel)⟩

example : Givable (.equivalence ⟨some .nfa, .dfa, true, false, some 2, c!"-a", [c!"b", c!"--"]⟩) := by
  refine ⟨by decide, ?_⟩
  intro n h
  cases h
  decide

example : (∀ p ∈ [c!"new.dfa", c!"min.dfa", c!"odd.dfa"], p ≠ [] ∧ ¬ Dashed p) ∧ NumberText c!"3" 3 ∧ host0.createError c!"new.dfa" = none ∧
    world0.file c!"min.dfa" ≠ world0.file c!"new.dfa" ∧ world0.file c!"odd.dfa" ≠ world0.file c!"new.dfa" := by
  refine ⟨?_, (parseUsize_iff _ _).1 (by decide +kernel), by decide, by decide, by decide⟩
  intro p hp
  rw [← isOption_iff]
  revert p
  decide

-- the two command lines one after the other
example : ((Clap.parse [c!"--out", c!"new.dfa", c!"intersection", c!"min.dfa", c!"odd.dfa"]).bind (fun args => (main host0 runOrd0 world0 args).bind
    (fun r => (Clap.parse [c!"--less-logs", c!"enumerate", c!"-a", c!"3", c!"new.dfa"]).bind (fun args' => main host0 runOrd0 r.world args')))).map
    (fun r => r.stdout) = some c!"ab\nabb\nbab\n" := by decide +kernel

/-! ## Instances of the theorems of this file -/

example := C95_exact [c!"enumerate", c!"-a3", c!"f"] ⟨none, false, .enumerateFile ⟨.dfa, 3, c!"f"⟩⟩
example := C95_expressible ⟨none, false, .enumerateFile ⟨.dfa, 3, c!"f"⟩⟩
example := C95_regex_argument c!"-a"
example := C95_letter_t [c!"f"] .nfa c!"nfa" rfl

end Dandy
