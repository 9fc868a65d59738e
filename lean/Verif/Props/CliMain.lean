import Verif.Proofs.CliMain
/-!
# The program `dandy`: errors, output file, results used as input

Properties C76–C78.
-/

namespace Dandy

open Cli Cli.Automata
open Samples
open TableText (Name)

/-! ## Errors -/

/-- **C76** The program never panics, whatever the files contain and whichever file is the output file. -/
theorem C76_total (h : Host) (hcl : Segmentation h.cl) (o : RunOrd) (ho : o.Valid) (w : World) (args : Args) :
    ∃ r, main h o w args = some r := by
  unfold main
  dsimp only
  obtain ⟨e, he⟩ := runCommand_total hcl (openOut h w args.outFile).1 (openOut h w args.outFile).2.1 o ho args
  rw [he]
  exact ⟨_, rfl⟩

/-- **C76** Nothing on standard error means success: if the output file (if any) is not one of the inputs, then standard error consists of
the complaint about the output file (if it could not be created), followed by one message exactly if the command had to fail; it names the command
and tells the first reason. -/
theorem C76_errors (h : Host) (hcl : Segmentation h.cl) (o : RunOrd) (ho : o.Valid) (w : World) (args : Args) (hs : Separate h w args) :
    ∃ r pre post, main h o w args = some r ∧ r.stderr = pre ++ post ∧
      (pre = [] ∨ ∃ path msg, args.outFile = some path ∧ h.createError path = some msg ∧ pre =
        [c!"Error creating output file " ++ msg, c!"Execution will continue but no data will be written to file"]) ∧
      (pre = [] → ∀ path, args.outFile = some path → h.createError path = none) ∧
      (¬ args.command.Fails h w → post = []) ∧
      (args.command.Fails h w → ∃ msg, args.command.Reason h w msg ∧ post = [c!"Error in " ++ args.command.name ++ c!": " ++ msg]) := by
  obtain ⟨e, he, h1, h2⟩ := outcome_command hcl w o ho args
  have post : (¬ args.command.Fails h w → (match e.result with | .ok _ => [] | .error t => [t]) = ([] : List Str)) ∧
      (args.command.Fails h w → ∃ msg, args.command.Reason h w msg ∧ (match e.result with | .ok _ => [] | .error t => [t]) =
        [c!"Error in " ++ args.command.name ++ c!": " ++ msg]) := by
    refine ⟨fun hf => by rw [h1 hf], fun hf => ?_⟩
    obtain ⟨msg, hr, hm⟩ := h2 hf
    exact ⟨msg, hr, by rw [hm]⟩
  cases hp : args.outFile with
  | none =>
    have := main_none he
    rw [show ({ args with outFile := none } : Args) = args by rw [← hp]] at this
    exact ⟨_, [], _, this, rfl, Or.inl rfl, fun _ _ hx => (by cases hx), post⟩
  | some path =>
    cases hc : h.createError path with
    | some msg => exact ⟨_, _, _, main_failed hp hc he, rfl, Or.inr ⟨path, msg, rfl, hc, rfl⟩, fun hx => by simp at hx, post⟩
    | none =>
      have he' := (runCommand_separate ((Agree.refl (w.file path) w).set []) o args (hs path hp hc)).trans he
      exact ⟨_, [], _, main_out hp hc he', rfl, Or.inl rfl, fun _ _ hx => by cases hx; exact hc, post⟩

/-- **C76** If the output file cannot be created, this is reported, and apart from that the program does the same as without one; no file is
changed. -/
theorem C76_create (h : Host) (hcl : Segmentation h.cl) (o : RunOrd) (ho : o.Valid) (w : World) (args : Args) (path msg : Str)
    (hp : args.outFile = some path) (hc : h.createError path = some msg) :
    ∃ r r', main h o w args = some r ∧ main h o w { args with outFile := none } = some r' ∧ r.stdout = r'.stdout ∧
      r.stderr = [c!"Error creating output file " ++ msg, c!"Execution will continue but no data will be written to file"] ++ r'.stderr ∧
      r.world = w ∧ r'.world = w := by
  obtain ⟨e, he⟩ := runCommand_total hcl none w o ho args
  exact ⟨_, _, main_failed hp hc he, main_none he, rfl, rfl, rfl, rfl⟩

/-- **C76** Success or failure cannot be told from the exit status: it is 0 for every failing command, too. -/
theorem C76_status_false (h : Host) (hcl : Segmentation h.cl) (o : RunOrd) (ho : o.Valid) (w : World) (args : Args) (hs : Separate h w args)
    (hf : args.command.Fails h w) : ∃ r, main h o w args = some r ∧ r.stderr ≠ [] ∧ r.status = 0 := by
  obtain ⟨r, pre, post, h1, h2, _, _, _, h3⟩ := C76_errors h hcl o ho w args hs
  obtain ⟨msg, _, h3⟩ := h3 hf
  refine ⟨r, h1, by rw [h2, h3]; simp, ?_⟩
  unfold main at h1
  simp only [Option.bind_eq_bind, Option.pure_def, Option.bind_eq_some_iff] at h1
  obtain ⟨_, _, h1⟩ := h1
  cases h1
  rfl

/-! ## The output file -/

/-- **C77** (partial: only if the output file is not one of the inputs, see `C77_self_compare_false` and `C77_input_lost_false`) With `--out`, the
console shows the same as without. The output file then contains exactly the output lines (not the log lines), one directly after the other
(see C63); no other file is changed. Without `--out`, no file is changed. -/
theorem C77_out_partial (h : Host) (hcl : Segmentation h.cl) (o : RunOrd) (ho : o.Valid) (w : World) (args : Args)
    (hs : Separate h w args) (out : Str) (hout : args.outFile = some out) (hc : h.createError out = none) :
    ∃ r r' lines, main h o w args = some r ∧ main h o w { args with outFile := none } = some r' ∧ r.stdout = r'.stdout ∧ r.stderr = r'.stderr ∧
      r.stdout = printed (lines.map Line.text) ∧ r.world.read out = .ok (outs lines).flatten ∧
      (∀ path, w.file path ≠ w.file out → r.world.read path = w.read path) ∧ r'.world = w := by
  obtain ⟨e, he⟩ := runCommand_total hcl none w o ho args
  have he' := (runCommand_separate ((Agree.refl (w.file out) w).set []) o args (hs out hout hc)).trans he
  obtain ⟨w1, w2, w3⟩ := write_set_content w (w.file out) e.lines
  refine ⟨_, _, e.lines, main_out hout hc he', main_none he, rfl, rfl, stdout_eq _, ?_, ?_, rfl⟩
  · unfold World.read; dsimp only; rw [w1]; exact w2
  · intro path hp
    unfold World.read; dsimp only; rw [w1]; exact w3 _ hp

/-- **C77** `--less-logs` only removes the log lines from the console: what is written to files, the errors, and the output lines on the
console are the same (for every choice of the output file). -/
theorem C77_less_logs (h : Host) (hcl : Segmentation h.cl) (o : RunOrd) (ho : o.Valid) (w : World) (out : Option Str) (command : Operation) :
    ∃ r r' lines, main h o w ⟨out, true, command⟩ = some r ∧ main h o w ⟨out, false, command⟩ = some r' ∧ r.world = r'.world ∧
      r.stderr = r'.stderr ∧ r'.stdout = printed (lines.map Line.text) ∧ r.stdout = printed (outs lines) := by
  obtain ⟨e, he⟩ := runCommand_total hcl (openOut h w out).1 (openOut h w out).2.1 o ho ⟨out, false, command⟩
  have he' := runCommand_quiet h (openOut h w out).1 (openOut h w out).2.1 o out command
  rw [he] at he'
  unfold main
  dsimp only
  rw [he, he']
  refine ⟨_, _, e.lines, rfl, rfl, write_quiet _ _ _, rfl, stdout_eq _, ?_⟩
  dsimp only [Effect.quiet]
  rw [stdout_eq]
  unfold Cli.quiet
  rw [List.map_map, show Line.text ∘ Line.out = id from rfl, List.map_id]

/-- **C77** If the output file is also an input that is read first, its content is lost: whatever was in it, the
command fails, and the file is empty afterwards. -/
theorem C77_input_lost_false (h : Host) (o : RunOrd) (w : World) (out : Str) (noLog : Bool) (b : BinaryOpArgs) (op : BinaryOperation)
    (hc : h.createError out = none) (hf : w.file b.first = w.file out) :
    ∃ r msg, main h o w ⟨some out, noLog, op.command b⟩ = some r ∧ r.stdout = [] ∧ r.stderr = [c!"Error in " ++ op.str ++ c!": " ++ msg] ∧
      r.world.read b.first = .ok [] := by
  have hr : (w.set (w.file out) []).read b.first = .ok [] := by
    unfold World.read World.set
    simp only [hf, ↓reduceIte]
  obtain ⟨x, hx⟩ := load_empty h.cl b.type
  have hl : loadFile (h.env (w.set (w.file out) [])) b.first b.type = .error x := by
    unfold loadFile
    change (match (w.set (w.file out) []).read b.first with | .error msg => Except.error (LoadError.file b.first msg) | .ok f => load h.cl f b.type) = _
    rw [hr]
    exact hx
  have hb : binaryOpIn h (some (w.file out)) (w.set (w.file out) []) o.product o.min1 o.min2 o.min3 noLog b op =
      some ⟨[], .error (.inputFile 1 x)⟩ := by
    unfold binaryOpIn
    rw [hl]
  have he : runCommand h (some (w.file out)) (w.set (w.file out) []) o ⟨some out, noLog, op.command b⟩ =
      some ⟨[], .error (c!"Error in " ++ op.str ++ c!": " ++ (BinaryError.inputFile 1 x).text)⟩ := by
    unfold runCommand
    cases op <;> (dsimp only [BinaryOperation.command, runBinary, Operation.binaryOperation]; rw [Option.bind_eq_bind, Option.bind_some, hb]; rfl)
  refine ⟨_, _, main_out rfl hc he, rfl, rfl, ?_⟩
  obtain ⟨w1, w2, _⟩ := write_set_content w (w.file out) []
  unfold World.read; dsimp only; rw [w1, hf]; exact w2

/-- What is known about the operands of the following theorems. -/
private theorem operands {h : Host} (hcl : Segmentation h.cl) {w : World} {b : BinaryOpArgs} {a1 a2 : Automata}
    (h1 : Cli.Contains h w b.first b.type a1) (h2 : Cli.Contains h w b.second (b.secondType.getD b.type) a2) (hs : SameElems a1.elems a2.elems)
    (hn : b.type = .dfa ∨ a1.elems ≠ [] ∧ ∀ e ∈ a1.elems, Name e) :
    ∃ b1 b2, loadFile (h.env w) b.first b.type = .ok b1 ∧ loadFile (h.env w) b.second (b.secondType.getD b.type) = .ok b2 ∧
      SameElems b1.elems b2.elems ∧ (∀ l, b1.HasAlphabet l ↔ a1.HasAlphabet l) ∧ (∀ x, b1.Lang x ↔ a1.Lang x) ∧ (∀ x, b2.Lang x ↔ a2.Lang x) ∧
      b1.elems ≠ [] ∧ ∀ e ∈ b1.elems, Name e := by
  obtain ⟨b1, hb1⟩ := (loadable_iff hcl).2 ⟨a1, h1⟩
  obtain ⟨b2, hb2⟩ := (loadable_iff hcl).2 ⟨a2, h2⟩
  obtain ⟨e1, l1⟩ := contains_same hcl hb1 h1
  obtain ⟨e2, l2⟩ := contains_same hcl hb2 h2
  refine ⟨b1, b2, hb1, hb2, fun x => ((e1 x).trans (hs x)).trans (e2 x).symm, ?_, l1, l2, ?_⟩
  · obtain ⟨text, t1, t2, t3⟩ := h1
    have hl := hb1
    unfold loadFile at hl
    change (match w.read b.first with | .error msg => Except.error (LoadError.file b.first msg) | .ok f => load h.cl f b.type) = .ok b1 at hl
    rw [t1] at hl
    exact ((C61_load_content h.cl hcl text b.type b1 hl).2.2.2 a1 t2 t3).1
  · rcases hn with hn | ⟨hn, hm⟩
    · unfold loadFile at hb1
      split at hb1
      · cases hb1
      · rw [hn] at hb1
        obtain ⟨p, d, g1, g2, rfl⟩ := load_dfa_iff.1 hb1
        obtain ⟨_, f2, f3, _⟩ := C40_parsed _ p d g1 g2
        exact ⟨f2, f3⟩
    · refine ⟨?_, fun e he => hm e ((e1 e).1 he)⟩
      intro hx
      rcases hl : a1.elems with _ | ⟨x, l⟩
      · exact hn hl
      · have := (e1 x).2 (by rw [hl]; exact List.mem_cons_self)
        rw [hx] at this
        cases this

/-- A binary operation with an output file that is not an operand. -/
private theorem run_binary {h : Host} (hcl : Segmentation h.cl) (o : RunOrd) (ho : o.Valid) (w : World) (out : Str) (noLog : Bool)
    (b : BinaryOpArgs) (op : BinaryOperation) (hc : h.createError out = none) (hf1 : w.file b.first ≠ w.file out)
    (hf2 : w.file b.second ≠ w.file out) (hen : b.enumerate = none) {a1 a2 : Automata} (h1 : Cli.Contains h w b.first b.type a1)
    (h2 : Cli.Contains h w b.second (b.secondType.getD b.type) a2) (hs : SameElems a1.elems a2.elems)
    (hn : b.type = .dfa ∨ a1.elems ≠ [] ∧ ∀ e ∈ a1.elems, Name e) :
    ∃ d table pre e, main h o w ⟨some out, noLog, op.command b⟩ = some ⟨stdout (pre ++ e.lines), (match e.result with
        | .ok _ => [] | .error t => [c!"Error in " ++ op.str ++ c!": " ++ BinaryError.text t]), 0,
        (w.set (w.file out) []).write (some (w.file out)) (pre ++ e.lines)⟩ ∧
      outs pre = [table] ∧ compareCombined (h.env ((w.set (w.file out) []).write (some (w.file out)) pre)) op b d = some e ∧ d.WF ∧
      a1.HasAlphabet d.alphabet ∧ load h.cl table .dfa = .ok (.dfa d) ∧ (∀ x, d.Lang x ↔ op.Combine (a1.Lang x) (a2.Lang x)) ∧
      (b.minimized = true → Minimal d) := by
  obtain ⟨b1, b2, g1, g2, g3, g4, g5, g6, g7, g8⟩ := operands hcl h1 h2 hs hn
  have hw := (Agree.refl (w.file out) w).set []
  rw [← loadFile_congr (hw.read hf1)] at g1
  rw [← loadFile_congr (hw.read hf2)] at g2
  obtain ⟨d, table, pre, e, k1, k2, k3, k4, k5, k6, k7, k8⟩ :=
    binary_table hcl (some (w.file out)) (w.set (w.file out) []) o ho noLog b op hen g1 g2 g3 g7 g8
  have he : runCommand h (some (w.file out)) (w.set (w.file out) []) o ⟨some out, noLog, op.command b⟩ =
      some ⟨pre ++ e.lines, match e.result with | .ok _ => .ok () | .error t => .error (c!"Error in " ++ op.str ++ c!": " ++ BinaryError.text t)⟩ := by
    obtain ⟨el, er⟩ := e
    unfold runCommand
    cases op <;> cases er <;>
      (dsimp only [BinaryOperation.command, runBinary, Operation.binaryOperation]; rw [Option.bind_eq_bind, Option.bind_some, k1]; rfl)
  refine ⟨d, table, pre, e, (main_out rfl hc he).trans ?_, k2, k3, k4, (g4 _).1 k5, k6, fun x => (k7 x).trans (Combine.congr op (g5 x) (g6 x)), k8⟩
  obtain ⟨el, er⟩ := e
  cases er <;> rfl

/-- **C77** If the output file is the file to compare with, the verdict is always EQUIVALENT: the file compared is the one just
written, whatever `c` contained. -/
theorem C77_self_compare_false (h : Host) (hcl : Segmentation h.cl) (o : RunOrd) (ho : o.Valid) (w : World) (out third : Str) (noLog : Bool)
    (b : BinaryOpArgs) (op : BinaryOperation) (hc : h.createError out = none) (hf1 : w.file b.first ≠ w.file out)
    (hf2 : w.file b.second ≠ w.file out) (hen : b.enumerate = none) (hca : b.compareAgainst = some third) (hf3 : w.file third = w.file out)
    (hct : b.comparedType = .dfa) (a1 a2 : Automata) (h1 : Cli.Contains h w b.first b.type a1)
    (h2 : Cli.Contains h w b.second (b.secondType.getD b.type) a2) (hs : SameElems a1.elems a2.elems)
    (hn : b.type = .dfa ∨ a1.elems ≠ [] ∧ ∀ e ∈ a1.elems, Name e) :
    ∃ r pre, main h o w ⟨some out, noLog, op.command b⟩ = some r ∧ r.stderr = [] ∧
      r.stdout = pre ++ op.str ++ c!" of the two provided " ++ b.type.toString true ++ c!" is EQUIVALENT to the third DFA\n" := by
  obtain ⟨d, table, pre, e, k1, k2, k3, k4, k5, k6, k7, k8⟩ := run_binary hcl o ho w out noLog b op hc hf1 hf2 hen h1 h2 hs hn
  obtain ⟨w1, w2, _⟩ := write_set_content w (w.file out) pre
  have hl : loadFile (h.env ((w.set (w.file out) []).write (some (w.file out)) pre)) third b.comparedType = .ok (.dfa d) := by
    unfold loadFile
    change (match ((w.set (w.file out) []).write (some (w.file out)) pre).read third with
      | .error msg => Except.error (LoadError.file third msg) | .ok f => load h.cl f b.comparedType) = _
    unfold World.read
    rw [w1, hf3, w2, k2, hct]
    simp only [List.flatten_cons, List.flatten_nil, List.append_nil]
    exact k6
  obtain ⟨res, hr, hv⟩ := testEquivalence_spec (a := .dfa d) (b := .dfa d) k4 k4 false
  have hres : res = .equivalent := by
    rcases hv with ⟨hx, _⟩ | ⟨_, hx, _⟩ | ⟨_, _, rfl⟩
    · exact absurd ⟨fun _ => Iff.rfl, fun _ => Iff.rfl⟩ hx
    · simp at hx
    · rfl
  unfold compareCombined at k3
  rw [hca] at k3
  dsimp only at k3
  rw [hl] at k3
  dsimp only at k3
  rw [hr, hres] at k3
  cases k3
  refine ⟨_, stdout pre, k1, rfl, ?_⟩
  dsimp only
  rw [hct]
  unfold stdout
  rw [List.flatMap_append]
  simp [AutomataType.toString]

/-! ## Using the result -/

/-- **C78** The output file of a binary operation is a DFA text of the result: with its alphabet, the combined language, and minimal
with `--minimized`. This holds if the files are DFAs, and for other types if the elements of the alphabet can be written in a
table (see `C78_regex_false`). -/
theorem C78_result (h : Host) (hcl : Segmentation h.cl) (o : RunOrd) (ho : o.Valid) (w : World) (out : Str) (noLog : Bool)
    (b : BinaryOpArgs) (op : BinaryOperation) (hc : h.createError out = none) (hf1 : w.file b.first ≠ w.file out)
    (hf2 : w.file b.second ≠ w.file out) (hen : b.enumerate = none) (hca : b.compareAgainst = none)
    (a1 a2 : Automata) (h1 : Cli.Contains h w b.first b.type a1)
    (h2 : Cli.Contains h w b.second (b.secondType.getD b.type) a2) (hs : SameElems a1.elems a2.elems)
    (hn : b.type = .dfa ∨ a1.elems ≠ [] ∧ ∀ e ∈ a1.elems, Name e) :
    ∃ r d, main h o w ⟨some out, noLog, op.command b⟩ = some r ∧ r.stderr = [] ∧ Cli.Contains h r.world out .dfa (.dfa d) ∧
      a1.HasAlphabet d.alphabet ∧ (∀ x, d.Lang x ↔ op.Combine (a1.Lang x) (a2.Lang x)) ∧ (b.minimized = true → Minimal d) := by
  obtain ⟨d, table, pre, e, k1, k2, k3, k4, k5, k6, k7, k8⟩ := run_binary hcl o ho w out noLog b op hc hf1 hf2 hen h1 h2 hs hn
  unfold compareCombined at k3
  rw [hca] at k3
  cases k3
  refine ⟨_, d, k1, rfl, ⟨table, ?_, rfl, (C61_load_content h.cl hcl table .dfa (.dfa d) k6).2.2.1⟩, k5, k7, k8⟩
  obtain ⟨w1, w2, _⟩ := write_set_content w (w.file out) (pre ++ [])
  unfold World.read; dsimp only; rw [w1, w2, outs_append, k2]
  simp [outs]

/-- **C78** `dandy enumerate`, for any file: the first words on the console, one on each line. -/
theorem C78_enumerate (h : Host) (hcl : Segmentation h.cl) (o : RunOrd) (ho : o.Valid) (w : World) (a : EnumerateFileArgs) (x : Automata)
    (hx : Cli.Contains h w a.file a.type x) :
    ∃ r al ws, main h o w ⟨none, true, .enumerateFile a⟩ = some r ∧ x.HasAlphabet al ∧ FirstWords al x.Lang a.amount ws ∧
      r.stdout = printed (ws.map shown) ∧ r.stderr = [] ∧ r.world = w := by
  obtain ⟨y, hy⟩ := (loadable_iff hcl).2 ⟨x, hx⟩
  obtain ⟨e, al, ws, e1, e2, e3, e4, e5, e6, _⟩ := C62_enumerate_file (h.env w) o.eps ho.eps true a.file a.type a.amount y hy
  obtain ⟨_, hl⟩ := contains_same hcl hy hx
  have ha : x.HasAlphabet al := by
    obtain ⟨text, t1, t2, t3⟩ := hx
    unfold loadFile at hy
    change (match w.read a.file with | .error msg => Except.error (LoadError.file a.file msg) | .ok f => load h.cl f a.type) = .ok y at hy
    rw [t1] at hy
    exact (((C61_load_content h.cl hcl text a.type y hy).2.2.2 x t2 t3).1 al).1 e3
  have he : runCommand h none w o ⟨none, true, .enumerateFile a⟩ = some ⟨e.lines, .ok ()⟩ := by
    unfold runCommand
    dsimp only
    rw [e1]
    obtain ⟨el, er⟩ := e
    cases e2
    rfl
  refine ⟨_, al, ws, main_none (args := ⟨none, true, .enumerateFile a⟩) he, ha, e4.congr hl, ?_, rfl, rfl⟩
  dsimp only
  rw [stdout_eq, e6 rfl, List.map_map, show Line.text ∘ Line.out = id from rfl, List.map_id]

/-- **C78** `dandy enumerate-regex`: the same for an expression given as argument. -/
theorem C78_enumerate_regex (h : Host) (hcl : Segmentation h.cl) (o : RunOrd) (ho : o.Valid) (w : World) (n : Nat) (text : Str) (x : RegexTree)
    (hx : IsTextOf h.cl text (.regex x)) :
    ∃ r al ws, main h o w ⟨none, true, .enumerateRegex ⟨n, text⟩⟩ = some r ∧ (Automata.regex x).HasAlphabet al ∧ FirstWords al (Matches x) n ws ∧
      r.stdout = printed (ws.map shown) ∧ r.stderr = [] ∧ r.world = w := by
  obtain ⟨y, hy⟩ := (C61_load_succeeds_iff h.cl hcl text .regex).2 ⟨.regex x, rfl, hx⟩
  obtain ⟨e, al, ws, e1, e2, e3, e4, e5, e6, _⟩ := C62_enumerate_regex (h.env w) o.eps ho.eps true text n y hy
  obtain ⟨ha, hl⟩ := (C61_load_content h.cl hcl text .regex y hy).2.2.2 (.regex x) rfl hx
  have he : runCommand h none w o ⟨none, true, .enumerateRegex ⟨n, text⟩⟩ = some ⟨e.lines, .ok ()⟩ := by
    unfold runCommand
    dsimp only
    rw [e1]
    obtain ⟨el, er⟩ := e
    cases e2
    rfl
  refine ⟨_, al, ws, main_none (args := ⟨none, true, .enumerateRegex ⟨n, text⟩⟩) he, (ha al).1 e3, e4.congr hl, ?_, rfl, rfl⟩
  dsimp only
  rw [stdout_eq, e6 rfl, List.map_map, show Line.text ∘ Line.out = id from rfl, List.map_id]

/-- **C78** `dandy test-file`: the reports of the files up to the first that cannot be read; the error about that file on standard
error. -/
theorem C78_test (h : Host) (hcl : Segmentation h.cl) (o : RunOrd) (w : World) (a : TestFileArgs) (x : Automata)
    (hx : Cli.Contains h w a.automata a.type x) :
    ∃ r read reports rest, main h o w ⟨none, true, .testFile a⟩ = some r ∧ a.files = read ++ rest ∧ r.stdout = printed reports.flatten ∧ r.world = w ∧
      List.Forall₂ (fun file report => ∃ content, w.read file = .ok content ∧
        (a.testType = .lines → LinesReport (fun l => x.Lang (h.seg l)) file content report) ∧
        (a.testType = .files → FilesReport (fun l => x.Lang (h.seg l)) file content report)) read reports ∧
      (rest = [] ∧ r.stderr = [] ∨
        ∃ bad more msg, rest = bad :: more ∧ w.read bad = .error msg ∧ r.stderr = [c!"Error in testing file: " ++ msg]) := by
  obtain ⟨y, hy⟩ := (loadable_iff hcl).2 ⟨x, hx⟩
  have hl := (contains_same hcl hy hx).2
  have hl' : y.Lang = x.Lang := funext (fun v => propext (hl v))
  obtain ⟨e, read, reports, rest, e1, e2, e3, e4, e5⟩ := C51_test_files (h.env w) true a.automata a.type a.testType a.files y hy
  obtain ⟨e', f1, f2, f3, f4⟩ := testFilesIn_eq h w true a hy e1
  have he : runCommand h none w o ⟨none, true, .testFile a⟩ = some (e'.mapErr (fun t => c!"Error in testing file: " ++ t)) := by
    unfold runCommand
    dsimp only
    rw [f1]
    rfl
  rw [hl'] at e4
  refine ⟨_, read, reports, rest, main_none (args := ⟨none, true, .testFile a⟩) he, e2, ?_, rfl, e4, ?_⟩
  · have hn := runCommand_noLogs (args := ⟨none, true, .testFile a⟩) rfl he
    unfold NoLogs at hn
    dsimp only [Effect.mapErr] at hn ⊢
    rw [hn, f2, stdout_eq, List.map_map, show Line.text ∘ Line.out = id from rfl, List.map_id, e3]
  · rcases e5 with ⟨g1, g2⟩ | ⟨bad, more, msg, g1, g2, g3⟩
    · exact Or.inl ⟨g1, by dsimp only [Effect.mapErr]; rw [f3 g2]⟩
    · exact Or.inr ⟨bad, more, msg, g1, g2, by dsimp only [Effect.mapErr]; rw [f4 bad msg g3]⟩

/-- **C77** `dandy --out f test-file`, where `f` may also be one of the files to be tested: in its place, the reports written before are tested;
in the end `f` contains all the reports. -/
theorem C77_test_reports (h : Host) (hcl : Segmentation h.cl) (o : RunOrd) (w : World) (a : TestFileArgs) (x : Automata) (out : Str)
    (hc : h.createError out = none) (ha : w.file a.automata ≠ w.file out) (hx : Cli.Contains h w a.automata a.type x) :
    ∃ (r : Run) (read : List Str) (reports : List (List Str)) (rest : List Str), main h o w ⟨some out, true, .testFile a⟩ = some r ∧ a.files = read ++ rest ∧ reports.length = read.length ∧
      r.stdout = printed reports.flatten ∧ r.world.read out = .ok reports.flatten.flatten ∧
      (∀ (i : Nat) file report, read[i]? = some file → reports[i]? = some report → ∃ content,
        (w.file file = w.file out → content = (reports.take i).flatten.flatten) ∧ (w.file file ≠ w.file out → w.read file = .ok content) ∧
        (a.testType = .lines → LinesReport (fun l => x.Lang (h.seg l)) file content report) ∧
        (a.testType = .files → FilesReport (fun l => x.Lang (h.seg l)) file content report)) ∧
      (rest = [] ∧ r.stderr = [] ∨ ∃ bad more msg, rest = bad :: more ∧ w.file bad ≠ w.file out ∧ w.read bad = .error msg ∧
        r.stderr = [c!"Error in testing file: " ++ msg]) := by
  obtain ⟨y, hy⟩ := (loadable_iff hcl).2 ⟨x, hx⟩
  have hl := (contains_same hcl hy hx).2
  have hl' : y.Lang = x.Lang := funext (fun v => propext (hl v))
  have hv := (loadFile_valid hy).1
  obtain ⟨g1, _, _, g4, _⟩ := intoNfa_spec hv
  obtain ⟨table, ht, _⟩ := (C59_nfa_aligned _ g1).1
  have hA : ∀ l, y.intoNfa.1.acceptsGraphemes h.seg l = true ↔ x.Lang (h.seg l) := by
    intro l
    rw [← hl', ← g4, ← C02_nfa_accepts_iff _ g1]
    rfl
  have hw : (w.set (w.file out) []).content (w.file out) = .ok [] := by unfold World.set; simp
  obtain ⟨read, reports, rest, r1, r2, r3, r4, r5⟩ := fileLoopIn_out h y.intoNfa.1 a.testType (w.file out) a.files _ _ hw
  have hread : ∀ q, w.file q ≠ w.file out → (w.set (w.file out) []).read q = w.read q := by
    intro q hq
    unfold World.read World.set
    simp only [if_neg hq]
  have hload : loadFile (h.env (w.set (w.file out) [])) a.automata a.type = .ok y := (loadFile_congr (hread _ ha) _).trans hy
  have he : runCommand h (some (w.file out)) (w.set (w.file out) []) o ⟨some out, true, .testFile a⟩ =
      some ((fileLoopIn h (some (w.file out)) y.intoNfa.1 a.testType (w.set (w.file out) []) a.files).mapErr
        (fun t => c!"Error in testing file: " ++ t)) := by
    unfold runCommand
    dsimp only
    unfold testFilesIn
    rw [hload]
    dsimp only
    rw [ht]
    rfl
  have hn := fileLoopIn_noLogs h (some (w.file out)) y.intoNfa.1 a.testType (w.set (w.file out) []) a.files
  unfold NoLogs at hn
  refine ⟨_, read, reports, rest, main_out (args := ⟨some out, true, .testFile a⟩) rfl hc he, r1, r2, ?_, ?_, ?_, ?_⟩
  · dsimp only [Effect.mapErr]
    rw [hn, stdout_eq, List.map_map, show Line.text ∘ Line.out = id from rfl, List.map_id, r3]
  · obtain ⟨w1, w2, _⟩ := write_set_content w (w.file out) (fileLoopIn h (some (w.file out)) y.intoNfa.1 a.testType (w.set (w.file out) []) a.files).lines
    unfold World.read
    dsimp only [Effect.mapErr]
    rw [w1, w2, r3]
  · intro i file report h1 h2
    obtain ⟨content, c1, c2, rfl⟩ := r4 i file report h1 h2
    refine ⟨content, fun hf => by simpa using c1 hf, fun hf => (hread _ hf).symm.trans (c2 hf), ?_, ?_⟩
    · intro hty; rw [hty]; exact testOne_lines h.seg _ _ hA file content
    · intro hty; rw [hty]; exact testOne_files h.seg _ _ hA file content
  · rcases r5 with ⟨g1, g2⟩ | ⟨bad, more, msg, g1, g2, g3⟩
    · exact Or.inl ⟨g1, by dsimp only [Effect.mapErr]; rw [g2]⟩
    · have hbad : w.file bad ≠ w.file out := by
        intro hf
        unfold World.read at g2
        rw [show (w.set (w.file out) []).file bad = w.file out from hf, hw] at g2
        cases g2
      exact Or.inr ⟨bad, more, msg, g1, hbad, (hread _ hbad).symm.trans g2, by dsimp only [Effect.mapErr]; rw [g3]⟩

/-- **C78** `dandy equivalence`: one line with the right verdict for each file. -/
theorem C78_equivalence (h : Host) (o : RunOrd) (ho : o.Valid) (w : World) (a : EquivalenceArgs) (ref : Automata)
    (href : loadFile (h.env w) a.automata (a.inType.getD a.type) = .ok ref) (hmin : a.minimized = true → a.type = .dfa) :
    ∃ r results lines, main h o w ⟨none, true, .equivalence a⟩ = some r ∧ List.Forall₂ (Verdict (h.env w) ref a) a.files results ∧
      List.Forall₂ (fun (fr : Str × EquivalenceResult) line => ShowsVerdict a fr.1 fr.2 line) (a.files.zip results) lines ∧
      r.stdout = printed lines ∧ r.stderr = [] ∧ r.world = w := by
  obtain ⟨e, results, e1, e2, e3, e4, e5, _⟩ := C48_command (h.env w) o.min1 ho.min1 true a ref href hmin
  have he : runCommand h none w o ⟨none, true, .equivalence a⟩ = some ⟨e.lines, .ok ()⟩ := by
    unfold runCommand
    dsimp only
    rw [e1]
    obtain ⟨el, er⟩ := e
    cases e2
    rfl
  refine ⟨_, results, outs e.lines, main_none (args := ⟨none, true, .equivalence a⟩) he, e3, e4, ?_, rfl, rfl⟩
  dsimp only
  rw [e5 rfl, stdout_eq, List.map_map, show Line.text ∘ Line.out = id from rfl, List.map_id, ← e5 rfl]

/-- **C78** The report of `dandy equivalence` consists of one line of text for each file, if no path contains a line end and (`--bool` is given
or every file can be read and parsed; it may be a table with defects). Otherwise see `C78_forged_line_false`. -/
theorem C78_report_lines_partial (h : Host) (hcl : Segmentation h.cl) (o : RunOrd) (ho : o.Valid) (w : World) (a : EquivalenceArgs) (ref : Automata)
    (href : loadFile (h.env w) a.automata (a.inType.getD a.type) = .ok ref) (hmin : a.minimized = true → a.type = .dfa)
    (hpath : ∀ f ∈ a.files, '\n' ∉ f) (hparse : a.bool = true ∨ ∀ f ∈ a.files, ∃ text, w.read f = .ok text ∧ Parses h.cl a.type text) :
    ∃ r results lines, main h o w ⟨none, true, .equivalence a⟩ = some r ∧ List.Forall₂ (Verdict (h.env w) ref a) a.files results ∧
      List.Forall₂ (fun (fr : Str × EquivalenceResult) line => ShowsVerdict a fr.1 fr.2 line) (a.files.zip results) lines ∧
      r.stdout = printed lines ∧ lines.length = a.files.length ∧ ∀ line ∈ lines, '\n' ∉ line := by
  obtain ⟨r, results, lines, h1, h2, h3, h4, _⟩ := C78_equivalence h o ho w a ref href hmin
  have hlen : results.length = a.files.length := h2.length_eq.symm
  refine ⟨r, results, lines, h1, h2, h3, h4, ?_, ?_⟩
  · rw [← h3.length_eq, List.length_zip, hlen, Nat.min_self]
  intro line hl
  obtain ⟨i, hi, rfl⟩ := List.getElem_of_mem hl
  have hz : i < (a.files.zip results).length := by rw [h3.length_eq]; exact hi
  have hs := List.forall₂_iff_get.1 h3 |>.2 i hz hi
  have hi1 : i < a.files.length := by rw [List.length_zip] at hz; omega
  have hi2 : i < results.length := by omega
  have hv := List.forall₂_iff_get.1 h2 |>.2 i hi1 hi2
  simp only [List.get_eq_getElem, List.getElem_zip] at hs hv
  refine showsVerdict_line (hpath _ (List.getElem_mem hi1)) ?_ hs
  rcases hparse with hb | hp
  · exact Or.inl hb
  · obtain ⟨text, t1, t2⟩ := hp _ (List.getElem_mem hi1)
    exact Or.inr (verdict_line (env := h.env w) hcl t1 t2 hv)

/-- **C76** If the first file of `equivalence` can be read, but is not legal, then there is one message on a single line. -/
theorem C76_reference_line (h : Host) (hcl : Segmentation h.cl) (o : RunOrd) (ho : o.Valid) (w : World) (a : EquivalenceArgs) (text : Str)
    (hr : w.read a.automata = .ok text) (hl : ¬ Loadable h w a.automata (a.inType.getD a.type)) :
    ∃ r line, main h o w ⟨none, true, .equivalence a⟩ = some r ∧ r.stderr = [line] ∧ '\n' ∉ line := by
  obtain ⟨r, pre, post, h1, h2, h3, _, _, h6⟩ := C76_errors h hcl o ho w ⟨none, true, .equivalence a⟩ (fun out ho => by cases ho)
  have hpre : pre = [] := by
    rcases h3 with h3 | ⟨_, _, h3, _⟩
    · exact h3
    · cases h3
  obtain ⟨msg, hm, hp⟩ := h6 (Or.inl hl)
  refine ⟨r, _, h1, by rw [h2, hpre, hp]; rfl, ?_⟩
  have hn : NoBreak msg := by
    rcases hm with ⟨e, he, rfl⟩ | ⟨hm, _⟩
    · rcases he with ⟨_, he, _⟩ | ⟨t, _, he⟩
      · rw [hr] at he; cases he
      · have := explains_noBreak he h.plain
        cases e with
        | file p msg => exact this.elim
        | dfaParse x => exact NoBreak.append.2 ⟨by unfold NoBreak; decide, this⟩
        | nfaParse x => exact NoBreak.append.2 ⟨by unfold NoBreak; decide, this⟩
        | regexParse x => exact NoBreak.append.2 ⟨by unfold NoBreak; decide, this⟩
        | dfaCompile x => exact NoBreak.append.2 ⟨by unfold NoBreak; decide, this⟩
        | nfaCompile x => exact NoBreak.append.2 ⟨by unfold NoBreak; decide, this⟩
    · exact absurd hm hl
  have : NoBreak (c!"Error in " ++ (Operation.equivalence a).name ++ c!": " ++ msg) :=
    NoBreak.append.2 ⟨NoBreak.append.2 ⟨NoBreak.append.2 ⟨by unfold NoBreak; decide, by
      have : (Operation.equivalence a).name = c!"Equivalence" := rfl
      rw [this]; unfold NoBreak; decide⟩, by unfold NoBreak; decide⟩, hn⟩
  exact this.1

/-- **C78** Two runs in a row: `dandy --out f union …` (or another operation) and `dandy enumerate --type dfa f`: the second prints the
first words of the combined language, in the order of the first alphabet. -/
theorem C78_pipeline (h : Host) (hcl : Segmentation h.cl) (o o' : RunOrd) (ho : o.Valid) (ho' : o'.Valid) (w : World) (out : Str) (noLog : Bool)
    (n : Nat) (b : BinaryOpArgs) (op : BinaryOperation) (hc : h.createError out = none) (hf1 : w.file b.first ≠ w.file out)
    (hf2 : w.file b.second ≠ w.file out) (hen : b.enumerate = none) (hca : b.compareAgainst = none)
    (a1 a2 : Automata) (h1 : Cli.Contains h w b.first b.type a1)
    (h2 : Cli.Contains h w b.second (b.secondType.getD b.type) a2) (hs : SameElems a1.elems a2.elems)
    (hn : b.type = .dfa ∨ a1.elems ≠ [] ∧ ∀ e ∈ a1.elems, Name e) :
    ∃ r r' al ws, main h o w ⟨some out, noLog, op.command b⟩ = some r ∧
      main h o' r.world ⟨none, true, .enumerateFile ⟨.dfa, n, out⟩⟩ = some r' ∧ a1.HasAlphabet al ∧
      FirstWords al (fun x => op.Combine (a1.Lang x) (a2.Lang x)) n ws ∧ r'.stdout = printed (ws.map shown) ∧ r'.stderr = [] := by
  obtain ⟨r, d, k1, _, k3, k4, k5, _⟩ := C78_result h hcl o ho w out noLog b op hc hf1 hf2 hen hca a1 a2 h1 h2 hs hn
  obtain ⟨r', al, ws, m1, m2, m3, m4, m5, _⟩ := C78_enumerate h hcl o' ho' r.world ⟨.dfa, n, out⟩ (.dfa d) k3
  cases m2
  exact ⟨r, r', _, ws, k1, m1, k4, m3.congr k5, m4, m5⟩

/-! ## Examples -/

/-- The host of the examples: the file `ro` cannot be created. -/
def host0 : Host := ⟨cl1, fun t => t.map (fun c => [c]), 7, fun c => c.toNat < 0x300, fun p => if p = c!"ro" then some c!"denied" else none⟩

/-- The files of the examples; `./odd.dfa` is the same file as `odd.dfa`. -/
def world0 : World where
  file p := if p = c!"min.dfa" then 1 else if p = c!"odd.dfa" ∨ p = c!"./odd.dfa" then 2 else if p = c!"ends.re" then 3
    else if p = c!"hash1.re" then 4 else if p = c!"hash2.re" then 5 else if p = c!"new.dfa" then 6 else 0
  content
    | 1 => .ok c!"a b\n-> n n y\n* y n y\n"
    | 2 => .ok c!"b a\n→ e e o\n* o o e\n"
    | 3 => .ok c!" (a|b)*b\n"
    | 4 => .ok c!"#|a"
    | 5 => .ok c!"#a"
    | _ => .error c!"gone"

def runOrd0 : RunOrd := ⟨List.reverse, revOrd, revOrd, revOrd, revEps⟩

theorem runOrd0_valid : runOrd0.Valid := ⟨fun _ => List.reverse_perm _, revOrd_valid, revOrd_valid, revOrd_valid, revEps_valid⟩

/-- `min.dfa odd.dfa --type dfa --minimized` -/
def bin0 : BinaryOpArgs := ⟨.dfa, none, .dfa, true, none, c!"min.dfa", c!"odd.dfa", none⟩

/-- What the file contains after the run. -/
def after (r : Option Run) (path : Str) : Option Str := r.bind (fun r => match r.world.read path with | .ok t => some t | .error _ => none)

/-- Standard output and error of a run. -/
def console (r : Option Run) : Option (Str × List Str) := r.map (fun r => (r.stdout, r.stderr))

example : Segmentation host0.cl ∧ runOrd0.Valid := ⟨cl1_seg, runOrd0_valid⟩
example : (loadFile (host0.env world0) c!"min.dfa" .dfa).isOk = true ∧ (loadFile (host0.env world0) c!"odd.dfa" .dfa).isOk = true := by decide +kernel

example : Separate host0 world0 ⟨some c!"new.dfa", true, .intersection bin0⟩ ∧ ¬ Separate host0 world0 ⟨some c!"./odd.dfa", true, .intersection bin0⟩ ∧
    Separate host0 world0 ⟨some c!"ro", true, .intersection bin0⟩ := by
  refine ⟨?_, ?_, ?_⟩
  · intro out h _ path hp
    cases h
    simp only [Operation.inputs, BinaryOpArgs.inputs, bin0, Option.toList, List.mem_cons, List.not_mem_nil, or_false] at hp
    rcases hp with rfl | rfl <;> decide
  · intro h
    exact h c!"./odd.dfa" rfl (by decide) c!"odd.dfa" (by simp [Operation.inputs, BinaryOpArgs.inputs, bin0]) (by decide)
  · intro out h h2
    cases h
    revert h2
    decide

-- a run with an output file, and one which uses it
example : console (main host0 runOrd0 world0 ⟨some c!"new.dfa", true, .intersection bin0⟩) =
    (after (main host0 runOrd0 world0 ⟨some c!"new.dfa", true, .intersection bin0⟩) c!"new.dfa").map (fun t => (t ++ ['\n'], [])) ∧
    console ((main host0 runOrd0 world0 ⟨some c!"new.dfa", true, .intersection bin0⟩).bind
      (fun r => main host0 runOrd0 r.world ⟨none, true, .enumerateFile ⟨.dfa, 3, c!"new.dfa"⟩⟩)) = some (c!"ab\nabb\nbab\n", []) := by decide +kernel

-- testing files
example : console (main host0 runOrd0 world0 ⟨none, true, .testFile ⟨.regex, .files, c!"ends.re", [c!"hash2.re", c!"none", c!"min.dfa"]⟩⟩) =
    some (c!"[FAIL] hash2.re failed on #a\n", [c!"Error in testing file: gone"]) := by decide +kernel

-- testing the reports
example : after (main host0 runOrd0 world0 ⟨some c!"./odd.dfa", true, .testFile ⟨.regex, .files, c!"ends.re", [c!"hash2.re", c!"odd.dfa"]⟩⟩) c!"odd.dfa" =
    some c!"[FAIL] hash2.re failed on #a[FAIL] odd.dfa failed on [FAIL] hash2.re failed on #a" := by decide +kernel

-- equivalence
example : console (main host0 runOrd0 world0 ⟨none, true, .equivalence ⟨some .regex, .dfa, true, false, none, c!"ends.re", [c!"min.dfa", c!"./odd.dfa"]⟩⟩) =
    some (c!"min.dfa: Equivalent\n./odd.dfa: Not Equivalent\n", []) := by decide +kernel

-- logs on the console, and the same file
example : console (main host0 runOrd0 world0 ⟨some c!"x", false, .enumerateRegex ⟨3, c!"a|b"⟩⟩) =
    some (c!"First 3 words of the language of the regex:\na\nb\n(only 2 words exists in the language of the regex)\n", []) ∧
    after (main host0 runOrd0 world0 ⟨some c!"x", false, .enumerateRegex ⟨3, c!"a|b"⟩⟩) c!"x" = some c!"ab" := by decide +kernel

-- the output file cannot be created
example : console (main host0 runOrd0 world0 ⟨some c!"ro", true, .enumerateRegex ⟨2, c!"a|b"⟩⟩) =
    some (c!"a\nb\n", [c!"Error creating output file denied", c!"Execution will continue but no data will be written to file"]) := by decide +kernel

-- failing commands have exit status 0
example : (main host0 runOrd0 world0 ⟨none, true, .enumerateFile ⟨.nfa, 3, c!"none"⟩⟩).map (fun r => (r.stdout, r.stderr, r.status)) =
    some ([], [c!"Error in enumerating file: Error loading file none: gone"], 0) ∧
    (main host0 runOrd0 world0 ⟨none, true, .union { bin0 with second := c!"ends.re", secondType := some .dfa }⟩).map
      (fun r => (r.stdout, r.stderr, r.status)) = some ([], [c!"Error in Union: Error reading 2: Error parsing DFA: error TakeTill1 at: "], 0) := by decide +kernel

-- the output file is an input
example : console (main host0 runOrd0 world0 ⟨some c!"./odd.dfa", true, .union { bin0 with first := c!"odd.dfa" }⟩) =
    some ([], [c!"Error in Union: Error reading 1: Error parsing DFA: error TakeTill1 at: "]) ∧
    after (main host0 runOrd0 world0 ⟨some c!"./odd.dfa", true, .union { bin0 with first := c!"odd.dfa" }⟩) c!"odd.dfa" = some [] := by decide +kernel

-- `min.dfa` united with itself is not the language of `odd.dfa`, but is said to be if `odd.dfa` is also the output file
example : ((main host0 runOrd0 world0 ⟨none, true, .union { bin0 with second := c!"min.dfa", compareAgainst := some c!"odd.dfa" }⟩).map
      (fun r => (r.stdout.drop (r.stdout.length - 66)))) = some c!"Union of the two provided DFAs is NOT EQUIVALENT to the third DFA\n" ∧
    ((main host0 runOrd0 world0 ⟨some c!"./odd.dfa", true, .union { bin0 with second := c!"min.dfa", compareAgainst := some c!"odd.dfa" }⟩).map
      (fun r => (r.stdout.drop (r.stdout.length - 62)))) = some c!"Union of the two provided DFAs is EQUIVALENT to the third DFA\n" := by decide +kernel

-- a table with a defect, and paths
example : console (main host0 runOrd0 { world0 with content := fun i => if i = 6 then .ok c!"a b\n-> n n x" else world0.content i }
    ⟨none, true, .equivalence ⟨some .regex, .dfa, true, false, none, c!"ends.re", [c!"min.dfa", c!"new.dfa"]⟩⟩) =
    some (c!"min.dfa: Equivalent\nnew.dfa: Failed to validate (State 'x' does not exist (in transition from state 'n'))\n", []) := by decide +kernel

/-- A submission of one of the students: `new.dfa`. -/
def forged : World := { world0 with content := fun i => if i = 6 then .ok c!"a\n{\nodd.dfa: Equivalent\n" else world0.content i }

/-- **C78** The report does not have one line for each file: the message about a text that cannot be parsed contains the rest of the text. The
author of such a text decides about further lines of the report: here about a file `odd.dfa`, which is not even tested. -/
theorem C78_forged_line_false :
    ∃ r line, main host0 runOrd0 forged ⟨none, true, .equivalence ⟨none, .dfa, false, false, none, c!"min.dfa", [c!"new.dfa"]⟩⟩ = some r ∧
      r.stdout = printed [line, c!"odd.dfa: Equivalent", c!")"] ∧ r.stderr = [] ∧
      console (main host0 runOrd0 forged ⟨none, true, .equivalence ⟨none, .dfa, false, false, none, c!"min.dfa", [c!"odd.dfa"]⟩⟩) =
        some (c!"odd.dfa: Not Equivalent\n", []) := by
  have h1 : console (main host0 runOrd0 forged ⟨none, true, .equivalence ⟨none, .dfa, false, false, none, c!"min.dfa", [c!"new.dfa"]⟩⟩) =
      some (printed [c!"new.dfa: Failed to parse (error TakeTill1 at: {", c!"odd.dfa: Equivalent", c!")"], []) := by decide +kernel
  obtain ⟨r, hr, h1⟩ := Option.map_eq_some_iff.1 h1
  obtain ⟨h1, h2⟩ := Prod.mk.injEq .. ▸ h1
  exact ⟨r, _, hr, h1, h2, by decide +kernel⟩

-- the first file of `equivalence` is not legal
example : console (main host0 runOrd0 forged ⟨none, true, .equivalence ⟨none, .dfa, false, false, none, c!"new.dfa", [c!"odd.dfa"]⟩⟩) =
    some ([], [c!"Error in Equivalence: Error parsing DFA: Error { input: \"{\\nodd.dfa: Equivalent\\n\", code: TakeTill1 }"]) := by decide +kernel

/-- `dandy --out new.dfa --less-logs union --type regex --minimized hash1.re hash2.re` -/
def hashRun : Args := ⟨some c!"new.dfa", true, .union ⟨.regex, none, .dfa, true, none, c!"hash1.re", c!"hash2.re", none⟩⟩

/-- **C78** For expressions this is false: in a table, `#` begins a comment. The union of the languages of `#|a` and `#a` is written to a file that
cannot be read. -/
theorem C78_regex_false :
    (loadFile (host0.env world0) c!"hash1.re" .regex).isOk = true ∧ (loadFile (host0.env world0) c!"hash2.re" .regex).isOk = true ∧
    ∃ r, main host0 runOrd0 world0 hashRun = some r ∧ r.stderr = [] ∧ ¬ Loadable host0 r.world c!"new.dfa" .dfa := by
  refine ⟨by decide +kernel, by decide +kernel, ?_⟩
  obtain ⟨r, hr⟩ := C76_total host0 cl1_seg runOrd0 runOrd0_valid world0 hashRun
  have h1 : (main host0 runOrd0 world0 hashRun).map (fun r => (r.stderr, (loadFile (host0.env r.world) c!"new.dfa" .dfa).isOk)) = some ([], false) := by
    decide +kernel
  rw [hr] at h1
  simp only [Option.map_some, Option.some.injEq, Prod.mk.injEq] at h1
  refine ⟨r, hr, h1.1, fun hl => ?_⟩
  obtain ⟨a, ha⟩ := (loadable_iff (h := host0) cl1_seg).2 hl
  rw [ha] at h1
  cases h1.2

/-! ## The theorems for these files

For every theorem with several assumptions, a run that meets them all. -/

/-- The automata of `min.dfa`, `odd.dfa` and `ends.re`. -/
def minD : Automata := .dfa ⟨[s 'a', s 'b'], [⟨s 'n', true, false, [0, 1]⟩, ⟨s 'y', false, true, [0, 1]⟩], 0⟩
def oddD : Automata := .dfa ⟨[s 'b', s 'a'], [⟨s 'e', true, false, [0, 1]⟩, ⟨s 'o', false, true, [1, 0]⟩], 0⟩
def endsR : Automata := .regex (.seq [.rep (.alt [.chr (.grapheme (s 'a')), .chr (.grapheme (s 'b'))]), .chr (.grapheme (s 'b'))])

theorem minD_load : loadFile (host0.env world0) c!"min.dfa" .dfa = .ok minD := by rfl
theorem oddD_load : loadFile (host0.env world0) c!"odd.dfa" .dfa = .ok oddD := by rfl
theorem endsR_load : loadFile (host0.env world0) c!"ends.re" .regex = .ok endsR := by rfl

theorem separate0 : Separate host0 world0 ⟨some c!"new.dfa", true, .intersection bin0⟩ := by
  intro out h _ path hp
  cases h
  simp only [Operation.inputs, BinaryOpArgs.inputs, bin0, Option.toList, List.mem_cons, List.not_mem_nil, or_false] at hp
  rcases hp with rfl | rfl <;> decide

example := C76_errors host0 cl1_seg runOrd0 runOrd0_valid world0 ⟨some c!"new.dfa", true, .intersection bin0⟩ separate0
example := C76_create host0 cl1_seg runOrd0 runOrd0_valid world0 ⟨some c!"ro", true, .enumerateRegex ⟨2, c!"a|b"⟩⟩ c!"ro" c!"denied" rfl (by decide)
example := C77_out_partial host0 cl1_seg runOrd0 runOrd0_valid world0 ⟨some c!"new.dfa", true, .intersection bin0⟩ separate0 c!"new.dfa" rfl (by decide)
example := C77_less_logs host0 cl1_seg runOrd0 runOrd0_valid world0 (some c!"new.dfa") (.intersection bin0)
example := C78_result host0 cl1_seg runOrd0 runOrd0_valid world0 c!"new.dfa" true bin0 .intersection (by decide) (by decide) (by decide) rfl rfl minD oddD
  (contains_of_load cl1_seg minD_load) (contains_of_load cl1_seg oddD_load) (fun e => by simp [minD, oddD, Automata.elems, or_comm]) (.inl rfl)
example := C78_enumerate host0 cl1_seg runOrd0 runOrd0_valid world0 ⟨.regex, 5, c!"ends.re"⟩ endsR (contains_of_load cl1_seg endsR_load)
example := C78_test host0 cl1_seg runOrd0 world0 ⟨.regex, .files, c!"ends.re", [c!"hash2.re", c!"none", c!"min.dfa"]⟩ endsR (contains_of_load cl1_seg endsR_load)
example := C77_test_reports host0 cl1_seg runOrd0 world0 ⟨.regex, .files, c!"ends.re", [c!"hash2.re", c!"odd.dfa"]⟩ endsR c!"./odd.dfa" (by decide) (by decide)
  (contains_of_load cl1_seg endsR_load)
example := C78_equivalence host0 runOrd0 runOrd0_valid world0 ⟨some .regex, .dfa, true, false, none, c!"ends.re", [c!"min.dfa", c!"none"]⟩ endsR endsR_load
  (fun _ => rfl)
example := C78_report_lines_partial host0 cl1_seg runOrd0 runOrd0_valid world0 ⟨some .regex, .dfa, true, true, none, c!"ends.re", [c!"min.dfa", c!"none"]⟩ endsR endsR_load
  (fun _ => rfl) (by decide) (.inl rfl)
example := C76_reference_line host0 cl1_seg runOrd0 runOrd0_valid world0 ⟨none, .dfa, true, false, none, c!"ends.re", [c!"min.dfa"]⟩ c!" (a|b)*b\n" rfl
  (fun hl => by
    obtain ⟨a, ha⟩ := (loadable_iff (h := host0) cl1_seg).2 hl
    have : (loadFile (host0.env world0) c!"ends.re" .dfa).isOk = false := by decide +kernel
    rw [show loadFile (host0.env world0) c!"ends.re" .dfa = .ok a from ha] at this
    cases this)

/-! ## Instances of the theorems of this file -/

example := C76_total host0 cl1_seg runOrd0 runOrd0_valid world0 ⟨some c!"new.dfa", false, .enumerateRegex ⟨3, c!"a*"⟩⟩

end Dandy
