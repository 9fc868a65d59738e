import Verif.Model.Nfa
import Verif.Model.Words
import Verif.Model.Regex
import Verif.Model.ParseErrors
import Verif.Model.Table
import Verif.Model.Chars
/-!
# Model of dandy-cli/src

Parts outside of the program are parameters: the file system and the text of errors of the operating system
(`Env`), the parsed command line arguments (clap is not modelled) and the iteration orders of hash sets. Standard output is
a list of lines, each printed by `log` or by `output`. Messages on standard error are not modelled here (but
the error itself is, as a value); see `Verif/Model/CliMain.lean` and `Verif/Model/CliWarnings.lean`.
-/

namespace Dandy
namespace Cli

/-- Everything a command gets from outside. dandy-cli/src/main.rs:283,
dandy-cli/src/automata.rs:70. -/
structure Env where
  /-- `fs::read_to_string`: the content, or the text of the error. -/
  read : Str → Except Str Str
  /-- `UnicodeSegmentation`, as used by the regex parser: length of the first cluster. -/
  cl : Str → Nat
  /-- `UnicodeSegmentation::graphemes(_, true)`. -/
  seg : Str → List Str
  /-- dandy-cli/src/equivalence.rs:66 `duration.as_millis()`. -/
  millis : Nat

/-- Iteration orders of hash sets in one call of `Dfa::minimize`. dandy/src/dfa/mod.rs:572-760. -/
structure MinOrd where
  u : List Nat → List Nat
  m : List Nat → List Nat
  k : List Nat → List Nat

/-- Iteration orders of hash sets in one call of `Nfa::remove_epsilon_moves`.
dandy/src/nfa/mod.rs:784-872. -/
structure EpsOrd where
  t : Nat → Nat → List Nat → List Nat
  dead : List Nat → List Nat

/-! ## automata.rs -/

/-- dandy-cli/src/automata.rs:29-35 `AutomataType`. -/
inductive AutomataType where
  | dfa | nfa | regex
deriving DecidableEq, Repr

/-- dandy-cli/src/automata.rs:38-47 `AutomataType::to_string`. -/
def AutomataType.toString : AutomataType → Bool → Str
  | .dfa, true => c!"DFAs"
  | .dfa, false => c!"DFA"
  | .nfa, true => c!"NFAs"
  | .nfa, false => c!"NFA"
  | .regex, true => c!"Regexes"
  | .regex, false => c!"Regex"

/-- dandy-cli/src/automata.rs:50-55 `Automata`. -/
inductive Automata where
  | dfa (d : Dfa)
  | nfa (n : Nfa)
  | regex (t : RegexTree)

/-- dandy-cli/src/automata.rs:13-27 `Error`. -/
inductive LoadError where
  | file (path msg : Str)
  | dfaParse (e : NomError)
  | dfaCompile (e : ParseError)
  | nfaParse (e : NomError)
  | nfaCompile (e : ParseError)
  | regexParse (e : NomError)
deriving DecidableEq, Repr

/-- dandy-cli/src/equivalence.rs:12-20 `EquivalenceResult`. -/
inductive EquivalenceResult where
  | failedToRead (msg : Str)
  | failedToParse (msg : Str)
  | failedToValidate (e : ParseError)
  | notEquivalent
  | notMinimized
  | equivalent
deriving DecidableEq, Repr

namespace Automata

/-- dandy-cli/src/automata.rs:60-66 `get_type`. -/
def getType : Automata → AutomataType
  | dfa _ => .dfa
  | nfa _ => .nfa
  | regex _ => .regex

/-- dandy-cli/src/automata.rs:75-95 `load`. -/
def load (cl : Str → Nat) (file : Str) : AutomataType → Except LoadError Automata
  | .dfa =>
    match FaE.dfa file with
    | .error e => .error (.dfaParse e)
    | .ok p => match Validate.dfa p with
      | .error e => .error (.dfaCompile e)
      | .ok d => .ok (.dfa d)
  | .nfa =>
    match FaE.nfa file with
    | .error e => .error (.nfaParse e)
    | .ok p => match Validate.nfa p with
      | .error e => .error (.nfaCompile e)
      | .ok n => .ok (.nfa n)
  | .regex =>
    match RegexE.regex cl file with
    | .error e => .error (.regexParse e)
    | .ok t => .ok (.regex t)

/-- dandy-cli/src/automata.rs:69-72 `load_file`. -/
def loadFile (env : Env) (path : Str) (type : AutomataType) : Except LoadError Automata :=
  match env.read path with
  | .error msg => .error (.file path msg)
  | .ok f => load env.cl f type

/-- dandy-cli/src/automata.rs:129-135 `into_dfa`. `none`: panic. -/
def intoDfa : Automata → Option (Dfa × Bool)
  | dfa d => some (d, false)
  | nfa n => do return (← n.toDfa, true)
  | regex t => do return (← t.toNfa.toDfa, true)

/-- dandy-cli/src/automata.rs:99-107 `into_minimized_dfa_if_not_dfa`. -/
def intoMinimizedDfaIfNotDfa (o : MinOrd) (a : Automata) : Option (Dfa × Bool) := do
  let (d, converted) ← a.intoDfa
  if !converted then return (d, false)
  else return (← d.minimize o.u o.m o.k, true)

/-- dandy-cli/src/automata.rs:111-117 `into_minimized_dfa`. -/
def intoMinimizedDfa (o : MinOrd) (a : Automata) : Option (Dfa × Bool) := do
  let (d, converted) ← a.intoDfa
  let m ← d.minimize o.u o.m o.k
  return (m, converted || m.states.length != d.states.length)

/-- dandy-cli/src/automata.rs:122-125 `into_minimized_dfa_automata`. -/
def intoMinimizedDfaAutomata (o : MinOrd) (a : Automata) : Option (Automata × Bool) := do
  let (d, converted) ← a.intoMinimizedDfa o
  return (dfa d, converted)

/-- dandy-cli/src/automata.rs:139-142 `into_dfa_automata`. -/
def intoDfaAutomata (a : Automata) : Option (Automata × Bool) := do
  let (d, converted) ← a.intoDfa
  return (dfa d, converted)

/-- dandy-cli/src/automata.rs:154-160 `into_nfa`. -/
def intoNfa : Automata → Nfa × Bool
  | dfa d => (d.toNfa, true)
  | nfa n => (n, false)
  | regex t => (t.toNfa, true)

/-- dandy-cli/src/automata.rs:164-167 `into_to_nfa_automata`. -/
def intoNfaAutomata (a : Automata) : Automata × Bool := (nfa a.intoNfa.1, a.intoNfa.2)

/-- dandy-cli/src/automata.rs:180-193 `convert_to`. Outer `none`: panic; inner `none`: the returned `None`. -/
def convertTo (a : Automata) : AutomataType → Option (Option (Automata × Bool))
  | .dfa => do return some (← a.intoDfaAutomata)
  | .nfa => some (some a.intoNfaAutomata)
  | .regex =>
    match a with
    | regex t => some (some (regex t, false))
    | _ => some none

/-- dandy-cli/src/automata.rs:198-203 `prepare_to_compare_with`. -/
def prepareToCompareWith (a : Automata) : AutomataType → Option (Automata × Bool)
  | .dfa => a.intoDfaAutomata
  | .nfa | .regex => some a.intoNfaAutomata

/-- dandy-cli/src/automata.rs:205-274 `test_equivalence`. -/
def testEquivalence (a other : Automata) (minimized : Bool) : Option EquivalenceResult :=
  match a, other with
  | dfa d1, dfa d2 => do
    if ← d1.equivalentTo d2 then
      if minimized && d1.states.length != d2.states.length then return .notMinimized else return .equivalent
    else return .notEquivalent
  | dfa d1, other => do
    let (d2, _) ← other.intoDfa
    if ← d1.equivalentTo d2 then return .equivalent else return .notEquivalent
  | nfa n1, other => do
    if ← n1.equivalentTo other.intoNfa.1 then return .equivalent else return .notEquivalent
  | regex t, other => do
    let (d1, _) ← (regex t).intoDfa
    let (d2, _) ← other.intoDfa
    if ← d1.equivalentTo d2 then return .equivalent else return .notEquivalent

/-- dandy-cli/src/automata.rs:279-307 `load_test`. -/
def loadTest (cl : Str → Nat) (file : Str) : AutomataType → Except EquivalenceResult Automata
  | .dfa =>
    match FaE.dfa file with
    | .error e => .error (.failedToParse e.text)
    | .ok p => match Validate.dfa p with
      | .error e => .error (.failedToValidate e)
      | .ok d => .ok (.dfa d)
  | .nfa =>
    match FaE.nfa file with
    | .error e => .error (.failedToParse e.text)
    | .ok p => match Validate.nfa p with
      | .error e => .error (.failedToValidate e)
      | .ok n => .ok (.nfa n)
  | .regex =>
    match RegexE.regex cl file with
    | .error e => .error (.failedToParse e.text)
    | .ok t => .ok (.nfa t.toNfa)

/-- dandy-cli/src/automata.rs:309-315 `table`. -/
def table : Automata → Option Str
  | dfa d => d.toTable
  | nfa n => n.toTable
  | regex t => some t.toText

end Automata

/-! ## Output -/

/-- A line of standard output. `output` lines also go to the output file (dandy-cli/src/main.rs:298-303). -/
inductive Line where
  | log (s : Str)
  | out (s : Str)
deriving DecidableEq, Repr

/-- The closure `log` of each command (e.g. dandy-cli/src/equivalence.rs:45-49). -/
def logLine (noLog : Bool) (s : Str) : List Line := if noLog then [] else [.log s]

/-- dandy-cli/src/main.rs:298-303 `sink`: the bytes written to the output file during a command (a successful `File::create`
assumed). -/
def outFile (lines : List Line) : Str :=
  lines.flatMap (fun l => match l with | .log _ => [] | .out s => s)

/-- Standard output: each line is printed by `println!`. dandy-cli/src/main.rs:299,
dandy-cli/src/binary_op.rs:15, dandy-cli/src/enumerate.rs:37, dandy-cli/src/equivalence.rs:47,
dandy-cli/src/test_files.rs:13. -/
def stdout (lines : List Line) : Str :=
  lines.flatMap (fun l => match l with | .log s => s ++ ['\n'] | .out s => s ++ ['\n'])

/-- The effect of a command: the lines printed, and its result. What the functions called at
dandy-cli/src/main.rs:307-324 do. -/
structure Effect (ε : Type) where
  lines : List Line
  result : Except ε Unit
deriving DecidableEq

/-! ## last_n_components -/

/-- `std::path::Component` (on Unix, no prefixes). dandy-cli/src/main.rs:352-354. -/
inductive Comp where
  | rootDir | curDir | parentDir
  | normal (s : Str)
deriving DecidableEq, Repr

/-- `str::split('/')`. For dandy-cli/src/main.rs:352-354. -/
def splitSlash : Str → List Str
  | [] => [[]]
  | c :: s =>
    if c = '/' then [] :: splitSlash s
    else match splitSlash s with
      | [] => [[c]]
      | p :: ps => (c :: p) :: ps

/-- A piece between slashes that is not the first of a relative path, as a component (`Components::parse_single_component` of
std). For dandy-cli/src/main.rs:352-354. -/
def piece (p : Str) : Option Comp :=
  if p = [] ∨ p = ['.'] then none else if p = ['.', '.'] then some .parentDir else some (.normal p)

/-- `Path::components` of std on Unix: repeated slashes and `.` are skipped, except for a leading `.`.
Called at dandy-cli/src/main.rs:352, dandy-cli/src/main.rs:354. -/
def components (path : Str) : List Comp :=
  if path.head? = some '/' then .rootDir :: (splitSlash path).filterMap piece
  else match splitSlash path with
    | ['.'] :: ps => .curDir :: ps.filterMap piece
    | ps => ps.filterMap piece

/-- `Component::as_os_str` of std. For dandy-cli/src/main.rs:352-356. -/
def Comp.str : Comp → Str
  | rootDir => ['/']
  | curDir => ['.']
  | parentDir => ['.', '.']
  | normal s => s

/-- `PathBuf::push` of std on Unix. For dandy-cli/src/main.rs:352, dandy-cli/src/main.rs:356. -/
def pathPush (buf p : Str) : Str :=
  if p.head? = some '/' then p
  else if buf = [] ∨ buf.getLast? = some '/' then buf ++ p
  else buf ++ '/' :: p

/-- `collect::<PathBuf>()`. Called at dandy-cli/src/main.rs:352, dandy-cli/src/main.rs:356. -/
def collectPath (cs : List Comp) : Str := cs.foldl (fun buf c => pathPush buf c.str) []

/-- dandy-cli/src/main.rs:347-360 `last_n_components`. Paths are texts (paths that are not UTF-8 are not modelled). -/
def lastNComponents (path : Str) : Option Nat → Option Str
  | none => some path
  | some n =>
    if n ≠ 0 then
      let newPath := collectPath ((components path).reverse.take n)
      some (collectPath (components newPath).reverse)
    else none

/-! ## equivalence.rs -/

/-- The message of a `DfaParseError` or `NfaParseError` (dandy/src/dfa/parse.rs:9-22, dandy/src/nfa/parse.rs:9-22). -/
def parseErrorText : ParseError → Str
  | .wrongNumberOfTransitions name has expected =>
    c!"Wrong number of transitions for state '" ++ name ++ c!"': has " ++ numStr has ++ c!" expected " ++ numStr expected
  | .transitionDoesNotExist name target =>
    c!"State '" ++ target ++ c!"' does not exist (in transition from state '" ++ name ++ c!"')"
  | .missingInitialState => c!"There is no initial state"
  | .multipleInitialStates => c!"There are two (or more) initial states"
  | .duplicateAlphabetSymbol e => ['\''] ++ e ++ c!"' appears twice in the alphabet"
  | .duplicateStateDefinition name => c!"State '" ++ name ++ c!"' defined multiple times"

/-- dandy-cli/src/equivalence.rs:22-34 `Display` of `EquivalenceResult`. -/
def EquivalenceResult.text : EquivalenceResult → Str
  | failedToRead s => c!"Failed to read (" ++ s ++ c!")"
  | failedToParse s => c!"Failed to parse (" ++ s ++ c!")"
  | failedToValidate e => c!"Failed to validate (" ++ parseErrorText e ++ c!")"
  | notEquivalent => c!"Not Equivalent"
  | notMinimized => c!"Equivalent but not minimized"
  | equivalent => c!"Equivalent"

/-- dandy-cli/src/main.rs:182-231 `EquivalenceArgs`. -/
structure EquivalenceArgs where
  inType : Option AutomataType
  type : AutomataType
  minimized : Bool
  bool : Bool
  pathLength : Option Nat
  automata : Str
  files : List Str

/-- dandy-cli/src/equivalence.rs:164-180 `Error`. -/
inductive EquivalenceError where
  | dfaParse (e : NomError)
  | dfa (e : ParseError)
  | nfaParse (e : NomError)
  | nfa (e : ParseError)
  | regexParse (e : NomError)
  | invalidMinimizedConfig
  | inputFile (msg : Str)
deriving DecidableEq, Repr

/-- dandy-cli/src/equivalence.rs:98-102 `DandyTester`. -/
structure Tester where
  input : Automata
  minimized : Bool
  testType : AutomataType

/-- The first part of `DandyTester::new` (dandy-cli/src/equivalence.rs:110-131). `none`: panic. -/
def Tester.readInput (cl : Str → Nat) (file : Str) : AutomataType → Option (Except EquivalenceError Automata)
  | .dfa =>
    match FaE.dfa file with
    | .error e => some (.error (.dfaParse e))
    | .ok p => match Validate.dfa p with
      | .error e => some (.error (.dfa e))
      | .ok d => some (.ok (.dfa d))
  | .nfa =>
    match FaE.nfa file with
    | .error e => some (.error (.nfaParse e))
    | .ok p => match Validate.nfa p with
      | .error e => some (.error (.nfa e))
      | .ok n => some (.ok (.nfa n))
  | .regex =>
    match RegexE.regex cl file with
    | .error e => some (.error (.regexParse e))
    | .ok t => do return .ok (.dfa (← t.toNfa.toDfa))

/-- dandy-cli/src/equivalence.rs:109-151 `DandyTester::new`. -/
def Tester.new (cl : Str → Nat) (o : MinOrd) (file : Str) (args : EquivalenceArgs) :
    Option (Except EquivalenceError Tester) :=
  match Tester.readInput cl file (args.inType.getD args.type) with
  | none => none
  | some (.error e) => some (.error e)
  | some (.ok input) =>
    if args.minimized then
      if args.type = .dfa then do
        let (input, _) ← input.intoMinimizedDfaAutomata o
        let (input, _) ← input.prepareToCompareWith args.type
        return .ok ⟨input, true, args.type⟩
      else some (.error .invalidMinimizedConfig)
    else do
      let (input, _) ← input.prepareToCompareWith args.type
      return .ok ⟨input, false, args.type⟩

/-- dandy-cli/src/equivalence.rs:153-161 `DandyTester::test_equivalence`. -/
def Tester.test (env : Env) (t : Tester) (file : Str) : Option EquivalenceResult :=
  match env.read file with
  | .error msg => some (.failedToRead msg)
  | .ok f =>
    match Automata.loadTest env.cl f t.testType with
    | .error res => some res
    | .ok a => t.input.testEquivalence a t.minimized

/-- The line printed for one file (dandy-cli/src/equivalence.rs:75-84). -/
def resultLine (args : EquivalenceArgs) (path : Str) (result : EquivalenceResult) : Str :=
  let res := if args.bool then (if result = .equivalent then c!"true" else c!"false") else result.text
  match lastNComponents path args.pathLength with
  | some pre => pre ++ c!": " ++ res
  | none => res

/-- The `fold` over the results (dandy-cli/src/equivalence.rs:74-91): lines printed and successes. -/
def resultLoop (args : EquivalenceArgs) : List (Str × EquivalenceResult) → Nat → List Line × Nat
  | [], acc => ([], acc)
  | (path, result) :: rest, acc =>
    let r := resultLoop args rest (if result = .equivalent then acc + 1 else acc)
    (.out (resultLine args path result) :: r.1, r.2)

/-- dandy-cli/src/equivalence.rs:36-96 `equivalence`. `none`: panic. -/
def equivalence (env : Env) (o : MinOrd) (noLog : Bool) (args : EquivalenceArgs) : Option (Effect EquivalenceError) :=
  match env.read args.automata with
  | .error msg => some ⟨[], .error (.inputFile msg)⟩
  | .ok file =>
    match Tester.new env.cl o file args with
    | none => none
    | some (.error e) => some ⟨[], .error e⟩
    | some (.ok tester) => do
      let table ← tester.input.table
      let results ← args.files.mapM (fun path => do return (path, ← tester.test env path))
      let r := resultLoop args results 0
      return ⟨logLine noLog c!"Input loaded:" ++ logLine noLog table ++
        logLine noLog (c!"Testing of " ++ numStr args.files.length ++ c!" files done in " ++ numStr env.millis ++
          c!"ms. Results:") ++ r.1 ++
        logLine noLog (numStr r.2 ++ c!"/" ++ numStr args.files.length ++ c!" files passed"), .ok ()⟩

/-! ## enumerate.rs -/

/-- `words().take(n)`: the words until `n` are found or the iterator is at its end. Simplification: `next` is called `n`
times, also after the end. Called at dandy-cli/src/binary_op.rs:82,
dandy-cli/src/enumerate.rs:52. -/
def takeWords (nfa : Nfa) (n : Nat) : Option (List Str) := do
  let rs ← nfa.words n
  return (rs.takeWhile Option.isSome).filterMap id

/-- How a word is printed (dandy-cli/src/enumerate.rs:53-57, dandy-cli/src/binary_op.rs:83-87). -/
def wordLine (w : Str) : Line := .out (if w.isEmpty then c!"(empty word)" else w)

/-- dandy-cli/src/enumerate.rs:28-63 `enumerate_nfa`. `none`: panic. -/
def enumerateNfa (o : EpsOrd) (nfa : Nfa) (noLog : Bool) (n : Nat) : Option (List Line) := do
  let nfa ← nfa.removeEpsilonMoves o.t o.dead
  let ws ← takeWords nfa n
  return logLine noLog (c!"First " ++ numStr n ++ c!" words of the language of the regex:") ++ ws.map wordLine ++
    (if ws.length ≠ n then
      logLine noLog (c!"(only " ++ numStr ws.length ++ c!" words exists in the language of the regex)") else [])

/-- dandy-cli/src/enumerate.rs:6-15 `enumerate_regex`. -/
def enumerateRegex (env : Env) (o : EpsOrd) (noLog : Bool) (regex : Str) (amount : Nat) : Option (Effect NomError) :=
  match RegexE.regex env.cl regex with
  | .error e => some ⟨[], .error e⟩
  | .ok t => do return ⟨← enumerateNfa o t.toNfa noLog amount, .ok ()⟩

/-- dandy-cli/src/enumerate.rs:17-26 `enumerate_file`. -/
def enumerateFile (env : Env) (o : EpsOrd) (noLog : Bool) (file : Str) (type : AutomataType) (amount : Nat) :
    Option (Effect LoadError) :=
  match Automata.loadFile env file type with
  | .error e => some ⟨[], .error e⟩
  | .ok a => do return ⟨← enumerateNfa o a.intoNfa.1 noLog amount, .ok ()⟩

/-! ## binary_op.rs -/

/-- dandy-cli/src/main.rs:148-154 `BinaryOperation`. -/
inductive BinaryOperation where
  | union | intersection | difference | symmetricDifference
deriving DecidableEq, Repr

/-- dandy-cli/src/main.rs:157-164 `as_str`, also `Display` (176-180). -/
def BinaryOperation.str : BinaryOperation → Str
  | union => c!"Union"
  | intersection => c!"Intersection"
  | difference => c!"Difference"
  | symmetricDifference => c!"Symmetric difference"

/-- dandy-cli/src/main.rs:166-173 `as_str_lower`. -/
def BinaryOperation.strLower : BinaryOperation → Str
  | union => c!"union"
  | intersection => c!"intersection"
  | difference => c!"difference"
  | symmetricDifference => c!"symmetric difference"

/-- dandy-cli/src/main.rs:233-275 `BinaryOpArgs`. -/
structure BinaryOpArgs where
  type : AutomataType
  secondType : Option AutomataType
  comparedType : AutomataType
  minimized : Bool
  enumerate : Option Nat
  first : Str
  second : Str
  compareAgainst : Option Str

/-- dandy-cli/src/binary_op.rs:115-123 `Error`. -/
inductive BinaryError where
  | differentAlphabets
  | compareTo (e : LoadError)
  | inputFile (i : Nat) (e : LoadError)
deriving DecidableEq, Repr

/-- dandy-cli/src/binary_op.rs:48-53: the operation itself. -/
def BinaryOperation.apply (ord : List (Nat × Nat) → List (Nat × Nat)) (op : BinaryOperation) (d1 d2 : Dfa) :
    Option (Option Dfa) :=
  match op with
  | union => Dfa.union ord d1 d2
  | intersection => Dfa.intersection ord d1 d2
  | difference => Dfa.difference ord d1 d2
  | symmetricDifference => Dfa.symmetricDifference ord d1 d2

/-- One operand (dandy-cli/src/binary_op.rs:26-28,34-39 and 29-32,41-46): the DFA after an optional minimization, and the lines
logged. -/
def operand (o : MinOrd) (noLog minimized : Bool) (i : Nat) (a : Automata) : Option (Dfa × List Line) := do
  let (d, converted) ← a.intoMinimizedDfaIfNotDfa o
  if converted then
    return (d, logLine noLog (c!"Input file " ++ numStr i ++
      c!" was converted to a minimized DFA to proceed, since it wasn't a DFA to start with"))
  else if minimized then
    return (← d.minimize o.u o.m o.k, logLine noLog (c!"Minimized DFA " ++ numStr i ++ c!" before doing product construction"))
  else return (d, [])

/-- The table printed (dandy-cli/src/binary_op.rs:59-74): the DFA after an optional minimization, and the lines. -/
def showCombined (o : MinOrd) (noLog : Bool) (op : BinaryOperation) (args : BinaryOpArgs) (combined : Dfa) :
    Option (Dfa × List Line) :=
  if args.minimized then do
    let combined ← combined.minimize o.u o.m o.k
    let table ← combined.toTable
    return (combined, logLine noLog (c!"Minimized DFA (" ++ op.str ++ c!" of the two provided " ++
      args.type.toString true ++ c!"):") ++ [.out table])
  else do
    let table ← combined.toTable
    return (combined, logLine noLog (op.str ++ c!" of " ++ args.type.toString true ++
      c!" (not minimized, add --minimized to minimize):") ++ [.out table])

/-- The enumeration (dandy-cli/src/binary_op.rs:76-93). -/
def enumerateCombined (op : BinaryOperation) (combined : Dfa) : Option Nat → Option (List Line)
  | none => some []
  | some n => do
    let ws ← takeWords combined.toNfa n
    return .out (c!"First " ++ numStr n ++ c!" words in the language of the " ++ op.strLower ++ c!":") ::
      (ws.map wordLine ++
        if ws.length ≠ n then [.out (c!"(only " ++ numStr ws.length ++ c!" words exists in the " ++ op.strLower ++ c!")")]
        else [])

/-- The comparison (dandy-cli/src/binary_op.rs:95-110). -/
def compareCombined (env : Env) (op : BinaryOperation) (args : BinaryOpArgs) (combined : Dfa) :
    Option (Effect BinaryError) :=
  match args.compareAgainst with
  | none => some ⟨[], .ok ()⟩
  | some path =>
    match Automata.loadFile env path args.comparedType with
    | .error e => some ⟨[], .error (.compareTo e)⟩
    | .ok compareTo => do
      let r ← (Automata.dfa combined).testEquivalence compareTo false
      let result := match r with
        | .equivalent => c!"EQUIVALENT"
        | _ => c!"NOT EQUIVALENT"
      return ⟨[.out (op.str ++ c!" of the two provided " ++ args.type.toString true ++ c!" is " ++ result ++
        c!" to the third " ++ args.comparedType.toString false)], .ok ()⟩

/-- dandy-cli/src/binary_op.rs:6-113 `binary_op`. `none`: panic. Three minimizations are possible (`o1`, `o2`, `o3`). -/
def binaryOp (env : Env) (ord : List (Nat × Nat) → List (Nat × Nat)) (o1 o2 o3 : MinOrd) (noLog : Bool) (args : BinaryOpArgs)
    (op : BinaryOperation) : Option (Effect BinaryError) :=
  match Automata.loadFile env args.first args.type with
  | .error e => some ⟨[], .error (.inputFile 1 e)⟩
  | .ok a1 =>
    match Automata.loadFile env args.second (args.secondType.getD args.type) with
    | .error e => some ⟨[], .error (.inputFile 2 e)⟩
    | .ok a2 => do
      let (d1, l1) ← operand o1 noLog args.minimized 1 a1
      let (d2, l2) ← operand o2 noLog args.minimized 2 a2
      match ← op.apply ord d1 d2 with
      | none => return ⟨l1 ++ l2, .error .differentAlphabets⟩
      | some combined =>
        let (combined, l3) ← showCombined o3 noLog op args combined
        let l4 ← enumerateCombined op combined args.enumerate
        let e ← compareCombined env op args combined
        return ⟨l1 ++ l2 ++ l3 ++ l4 ++ e.lines, e.result⟩

/-! ## test_files.rs -/

/-- `str::split_inclusive('\n')`. For dandy-cli/src/test_files.rs:34,
dandy-cli/src/test_files.rs:48. -/
def splitInclusive : Str → List Str
  | [] => []
  | c :: s =>
    if c = '\n' then [c] :: splitInclusive s
    else match splitInclusive s with
      | [] => [[c]]
      | l :: ls => (c :: l) :: ls

/-- The closure of `str::lines` (`LinesMap` of core): removes `\n` or `\r\n` from the end. For
dandy-cli/src/test_files.rs:34, dandy-cli/src/test_files.rs:48. -/
def stripEol (l : Str) : Str :=
  if l.getLast? = some '\n' then
    if l.dropLast.getLast? = some '\r' then l.dropLast.dropLast else l.dropLast
  else l

/-- `str::lines`. Called at dandy-cli/src/test_files.rs:34, dandy-cli/src/test_files.rs:48. -/
def linesOf (s : Str) : List Str := (splitInclusive s).map stripEol

/-- dandy-cli/src/main.rs:128-133 `TestType`. -/
inductive TestType where
  | lines | files
deriving DecidableEq, Repr

/-- The loop over the lines of a file (dandy-cli/src/test_files.rs:32-44): lines printed, `n` and `a`. -/
def lineLoop (seg : Str → List Str) (nfa : Nfa) : List Str → Nat → Nat → List Line × Nat × Nat
  | [], n, a => ([], n, a)
  | line :: rest, n, a =>
    let accepted := nfa.acceptsGraphemes seg line
    let r := lineLoop seg nfa rest (n + 1) (if accepted then a + 1 else a)
    (.out ((if accepted then c!"[ OK ]" else c!"[FAIL]") ++ [' '] ++ line) :: r.1, r.2)

/-- One file (dandy-cli/src/test_files.rs:30-58). -/
def testOne (seg : Str → List Str) (nfa : Nfa) (testType : TestType) (file content : Str) : List Line :=
  if testType = .lines then
    let r := lineLoop seg nfa (linesOf content) 0 0
    .out (c!"Testing file " ++ file ++ c!":") ::
      (r.1 ++ [.out (numStr r.2.2 ++ c!"/" ++ numStr r.2.1 ++ c!" lines passed in file " ++ file ++ c!":")])
  else
    match (linesOf content).find? (fun line => !nfa.acceptsGraphemes seg line) with
    | none => [.out (c!"[ OK ] " ++ file)]
    | some c => [.out (c!"[FAIL] " ++ file ++ c!" failed on " ++ c)]

/-- The loop over the files (dandy-cli/src/test_files.rs:28-59). The error is the one of `fs::read_to_string`. -/
def fileLoop (env : Env) (nfa : Nfa) (testType : TestType) : List Str → Effect LoadError
  | [] => ⟨[], .ok ()⟩
  | file :: rest =>
    match env.read file with
    | .error msg => ⟨[], .error (.file file msg)⟩
    | .ok content =>
      let r := fileLoop env nfa testType rest
      ⟨testOne env.seg nfa testType file content ++ r.lines, r.result⟩

/-- dandy-cli/src/test_files.rs:5-62 `test_files`. `none`: panic. -/
def testFiles (env : Env) (noLog : Bool) (automata : Str) (type : AutomataType) (testType : TestType) (files : List Str) :
    Option (Effect LoadError) :=
  match Automata.loadFile env automata type with
  | .error e => some ⟨[], .error e⟩
  | .ok a => do
    let nfa := a.intoNfa.1
    let table ← nfa.toTable
    let r := fileLoop env nfa testType files
    return ⟨logLine noLog (c!"Loaded NFA:\n" ++ table) ++ r.lines, r.result⟩

end Cli
end Dandy
