import Verif.Model.Cli
/-!
# Model of dandy-cli/src/main.rs `main`

The files are part of a world that the program changes: the file given by `--out` is emptied before the command starts, and every output line
is appended to it while the command is running. The commands are those of `Verif/Model/Cli.lean`; those that read files after the first
output (`binary_op`, `test_files`) are modelled again here with the world at that time.

Simplifications: all files are regular files; a file that has been created can be read; writing to standard output and to the created
file never fails; nothing else changes the files while the program runs. As in `Verif/Model/Cli.lean`, the arguments are already parsed.
-/

namespace Dandy
namespace Cli

/-- The files. Read at dandy-cli/src/automata.rs:70, dandy-cli/src/equivalence.rs:41,
dandy-cli/src/equivalence.rs:154, dandy-cli/src/test_files.rs:29; written at
dandy-cli/src/main.rs:298-303. -/
structure World where
  /-- Which file a path names (different paths can name the same file; also for files that do not exist yet). -/
  file : Str → Nat
  /-- The content of a file, or the text of the error when reading it. -/
  content : Nat → Except Str Str

/-- Everything else from outside. dandy-cli/src/main.rs:282-331. -/
structure Host where
  cl : Str → Nat
  seg : Str → List Str
  millis : Nat
  /-- Whether a character is shown as it is in the `Debug` format of strings (tables of Rust's `core`). -/
  plain : Char → Bool
  /-- The text of the error of `File::create`, if it fails. -/
  createError : Str → Option Str

/-- `fs::read_to_string`. Called at dandy-cli/src/automata.rs:70,
dandy-cli/src/equivalence.rs:41, dandy-cli/src/equivalence.rs:154,
dandy-cli/src/test_files.rs:29. -/
def World.read (w : World) (path : Str) : Except Str Str := w.content (w.file path)

/-- The world after a file has got a new content. For dandy-cli/src/main.rs:298-303. -/
def World.set (w : World) (f : Nat) (t : Str) : World :=
  { w with content := fun g => if g = f then .ok t else w.content g }

/-- What a command gets, with the files as they are now. For dandy-cli/src/main.rs:305-326. -/
def Host.env (h : Host) (w : World) : Env := ⟨w.read, h.cl, h.seg, h.millis⟩

/-- dandy-cli/src/main.rs:298-303: what the closure `sink` does with the output lines (`File::write_all` appends). -/
def World.write (w : World) (out : Option Nat) (lines : List Line) : World :=
  match out with
  | none => w
  | some f =>
    match w.content f with
    | .ok t => w.set f (t ++ outFile lines)
    | .error _ => w

/-! ## Texts of errors -/

/-- dandy-cli/src/automata.rs:13-27, `Display`. -/
def LoadError.text : LoadError → Str
  | file path msg => c!"Error loading file " ++ path ++ c!": " ++ msg
  | dfaParse e => c!"Error parsing DFA: " ++ e.text
  | dfaCompile e => c!"Error compiling DFA: " ++ parseErrorText e
  | nfaParse e => c!"Error parsing DFA: " ++ e.text
  | nfaCompile e => c!"Error compiling DFA: " ++ parseErrorText e
  | regexParse e => c!"Error parsing Regex: " ++ e.text

/-- dandy-cli/src/equivalence.rs:164-180, `Display`. -/
def EquivalenceError.text (plain : Char → Bool) : EquivalenceError → Str
  | dfaParse e => c!"Error parsing DFA: " ++ e.debug plain
  | dfa e => c!"Error compiling DFA: " ++ parseErrorText e
  | nfaParse e => c!"Error parsing NFA: " ++ e.debug plain
  | nfa e => c!"Error compiling NFA: " ++ parseErrorText e
  | regexParse e => c!"Error parsing regular expression: " ++ e.debug plain
  | invalidMinimizedConfig => c!"--minimized option can only be used when testing DFAs"
  | inputFile msg => c!"Error reading input file: " ++ msg

/-- dandy-cli/src/binary_op.rs:115-123, `Display`. -/
def BinaryError.text : BinaryError → Str
  | differentAlphabets => c!"Different alphabets in input DFAs, can't do product construction"
  | compareTo e => c!"Error comparing with automata: " ++ e.text
  | inputFile i e => c!"Error reading " ++ numStr i ++ c!": " ++ e.text

/-- `map_err` on the result of a command. dandy-cli/src/main.rs:307-324. -/
def Effect.mapErr {ε : Type} (e : Effect ε) (f : ε → Str) : Effect Str :=
  ⟨e.lines, match e.result with | .ok _ => .ok () | .error x => .error (f x)⟩

/-! ## Commands that read after writing -/

/-- dandy-cli/src/binary_op.rs:6-113 `binary_op`, with the file of the comparison read after the table has been written. -/
def binaryOpIn (h : Host) (out : Option Nat) (w : World) (ord : List (Nat × Nat) → List (Nat × Nat)) (o1 o2 o3 : MinOrd)
    (noLog : Bool) (args : BinaryOpArgs) (op : BinaryOperation) : Option (Effect BinaryError) :=
  match Automata.loadFile (h.env w) args.first args.type with
  | .error e => some ⟨[], .error (.inputFile 1 e)⟩
  | .ok a1 =>
    match Automata.loadFile (h.env w) args.second (args.secondType.getD args.type) with
    | .error e => some ⟨[], .error (.inputFile 2 e)⟩
    | .ok a2 => do
      let (d1, l1) ← operand o1 noLog args.minimized 1 a1
      let (d2, l2) ← operand o2 noLog args.minimized 2 a2
      match ← op.apply ord d1 d2 with
      | none => return ⟨l1 ++ l2, .error .differentAlphabets⟩
      | some combined =>
        let (combined, l3) ← showCombined o3 noLog op args combined
        let l4 ← enumerateCombined op combined args.enumerate
        let e ← compareCombined (h.env (w.write out (l1 ++ l2 ++ l3 ++ l4))) op args combined
        return ⟨l1 ++ l2 ++ l3 ++ l4 ++ e.lines, e.result⟩

/-- dandy-cli/src/main.rs:103-126 `TestFileArgs`. -/
structure TestFileArgs where
  type : AutomataType
  testType : TestType
  automata : Str
  files : List Str

/-- The loop over the files (dandy-cli/src/test_files.rs:28-59): each file is read after the reports of the previous ones have been
written. The error is the text of the error of `fs::read_to_string`. -/
def fileLoopIn (h : Host) (out : Option Nat) (nfa : Nfa) (testType : TestType) : World → List Str → Effect Str
  | _, [] => ⟨[], .ok ()⟩
  | w, file :: rest =>
    match w.read file with
    | .error msg => ⟨[], .error msg⟩
    | .ok content =>
      let report := testOne h.seg nfa testType file content
      let r := fileLoopIn h out nfa testType (w.write out report) rest
      ⟨report ++ r.lines, r.result⟩

/-- dandy-cli/src/test_files.rs:5-62 `test_files`. `none`: panic. -/
def testFilesIn (h : Host) (out : Option Nat) (w : World) (noLog : Bool) (args : TestFileArgs) : Option (Effect Str) :=
  match Automata.loadFile (h.env w) args.automata args.type with
  | .error e => some ⟨[], .error e.text⟩
  | .ok a => do
    let nfa := a.intoNfa.1
    let table ← nfa.toTable
    let r := fileLoopIn h out nfa args.testType w args.files
    return ⟨logLine noLog (c!"Loaded NFA:\n" ++ table) ++ r.lines, r.result⟩

/-! ## main -/

/-- dandy-cli/src/main.rs:72-82 `EnumerateRegexArgs`. -/
structure EnumerateRegexArgs where
  amount : Nat
  regex : Str

/-- dandy-cli/src/main.rs:84-101 `EnumerateFileArgs`. -/
structure EnumerateFileArgs where
  type : AutomataType
  amount : Nat
  file : Str

/-- dandy-cli/src/main.rs:40-70 `Operation`. -/
inductive Operation where
  | equivalence (args : EquivalenceArgs)
  | union (args : BinaryOpArgs)
  | intersection (args : BinaryOpArgs)
  | difference (args : BinaryOpArgs)
  | symmetricDifference (args : BinaryOpArgs)
  | enumerateRegex (args : EnumerateRegexArgs)
  | enumerateFile (args : EnumerateFileArgs)
  | testFile (args : TestFileArgs)

/-- dandy-cli/src/main.rs:136-145 `binary_operation`. -/
def Operation.binaryOperation : Operation → Option BinaryOperation
  | union _ => some .union
  | intersection _ => some .intersection
  | difference _ => some .difference
  | symmetricDifference _ => some .symmetricDifference
  | _ => none

/-- dandy-cli/src/main.rs:23-38 `DandyArgs`. -/
structure Args where
  outFile : Option Str
  noLog : Bool
  command : Operation

/-- Iteration orders of all hash sets used during one run. For dandy-cli/src/main.rs:305-326. -/
structure RunOrd where
  product : List (Nat × Nat) → List (Nat × Nat)
  min1 : MinOrd
  min2 : MinOrd
  min3 : MinOrd
  eps : EpsOrd

/-- dandy-cli/src/main.rs:309-316: the arm for the binary operations. `none`: panic (`unwrap`). -/
def runBinary (h : Host) (out : Option Nat) (w : World) (o : RunOrd) (args : Args) (b : BinaryOpArgs) : Option (Effect Str) := do
  let operation ← args.command.binaryOperation
  let e ← binaryOpIn h out w o.product o.min1 o.min2 o.min3 args.noLog b operation
  return (e.mapErr BinaryError.text).mapErr (fun t => c!"Error in " ++ operation.str ++ c!": " ++ t)

/-- dandy-cli/src/main.rs:305-326 and 333-345 (`Error`, `Display`): the dispatch. `enumerate_regex` gives the text of nom's error. -/
def runCommand (h : Host) (out : Option Nat) (w : World) (o : RunOrd) (args : Args) : Option (Effect Str) :=
  match args.command with
  | .equivalence a => do
    let e ← equivalence (h.env w) o.min1 args.noLog a
    return (e.mapErr (EquivalenceError.text h.plain)).mapErr (fun t => c!"Error in Equivalence: " ++ t)
  | .union b | .intersection b | .difference b | .symmetricDifference b => runBinary h out w o args b
  | .testFile a => do
    let e ← testFilesIn h out w args.noLog a
    return e.mapErr (fun t => c!"Error in testing file: " ++ t)
  | .enumerateRegex a => do
    let e ← enumerateRegex (h.env w) o.eps args.noLog a.regex a.amount
    return (e.mapErr NomError.text).mapErr (fun t => c!"Error in enumerating regex: " ++ t)
  | .enumerateFile a => do
    let e ← enumerateFile (h.env w) o.eps args.noLog a.file a.type a.amount
    return (e.mapErr LoadError.text).mapErr (fun t => c!"Error in enumerating file: " ++ t)

/-- What can be seen after the program has run. dandy-cli/src/main.rs:282-331. -/
structure Run where
  stdout : Str
  /-- The lines on standard error. -/
  stderr : List Str
  /-- The exit status. -/
  status : Nat
  world : World

/-- dandy-cli/src/main.rs:286-296: creating the output file. The file to write to, the world, and the lines on standard error. -/
def openOut (h : Host) (w : World) : Option Str → Option Nat × World × List Str
  | none => (none, w, [])
  | some path =>
    match h.createError path with
    | none => (some (w.file path), w.set (w.file path) [], [])
    | some e => (none, w, [c!"Error creating output file " ++ e, c!"Execution will continue but no data will be written to file"])

/-- dandy-cli/src/main.rs:283-331 `main`. `none`: panic. The exit status is 0 whenever `main` returns. -/
def main (h : Host) (o : RunOrd) (w : World) (args : Args) : Option Run := do
  let (out, w, messages) := openOut h w args.outFile
  let e ← runCommand h out w o args
  return ⟨Cli.stdout e.lines, messages ++ (match e.result with | .ok _ => [] | .error t => [t]), 0, w.write out e.lines⟩

end Cli
end Dandy
