import Verif.Model.CliMain
/-!
# Command line arguments

The arguments of the command line tool are declared in dandy-cli/src/main.rs:21-275 for the crate clap (dandy-cli/Cargo.toml:10,
version 4). The declarations are modelled here together with what clap's parser (`DandyArgs::parse()`, dandy-cli/src/main.rs:284) does
with them by default: its source is not part of the repository, so it is modelled after its documentation. `none`: clap prints a message (an
error, the help or the version) and ends the program; which of these is not modelled. Arguments are texts (on Unix they may be any bytes).
-/

namespace Dandy
namespace Cli
namespace Clap

/-- A declared option: a field with `long` (and perhaps `short`) in its attribute `#[arg(...)]`. A field of type `bool` is a flag,
any other one takes a value. Reading of the command line by clap for the declarations in
dandy-cli/src/main.rs:21-275; called at dandy-cli/src/main.rs:284. -/
structure Opt where
  long : Str
  short : Option Char
  value : Bool
deriving DecidableEq

/-- dandy-cli/src/main.rs:23-38 `DandyArgs`. -/
def topOpts : List Opt := [⟨c!"out", some 'o', true⟩, ⟨c!"less-logs", none, false⟩]

/-- dandy-cli/src/main.rs:72-82 `EnumerateRegexArgs`. -/
def enumerateRegexOpts : List Opt := [⟨c!"amount", some 'n', true⟩]

/-- dandy-cli/src/main.rs:84-101 `EnumerateFileArgs`. -/
def enumerateFileOpts : List Opt := [⟨c!"type", none, true⟩, ⟨c!"amount", some 'a', true⟩]

/-- dandy-cli/src/main.rs:103-126 `TestFileArgs`. -/
def testFileOpts : List Opt := [⟨c!"type", none, true⟩, ⟨c!"test-type", some 't', true⟩]

/-- dandy-cli/src/main.rs:182-231 `EquivalenceArgs`. -/
def equivalenceOpts : List Opt :=
  [⟨c!"in-type", some 'i', true⟩, ⟨c!"type", some 't', true⟩, ⟨c!"minimized", some 'm', false⟩, ⟨c!"bool", some 'b', false⟩,
    ⟨c!"path-length", some 'p', true⟩]

/-- dandy-cli/src/main.rs:233-275 `BinaryOpArgs`. -/
def binaryOpts : List Opt :=
  [⟨c!"type", some 't', true⟩, ⟨c!"second-type", some 's', true⟩, ⟨c!"compared-type", none, true⟩, ⟨c!"minimized", some 'm', false⟩,
    ⟨c!"enumerate", some 'e', true⟩]

/-! ## Reading the words -/

/-- A word is taken for an option if it begins with a dash and is not just that. Reading of the
command line by clap for the declarations in dandy-cli/src/main.rs:21-275; called at
dandy-cli/src/main.rs:284. -/
def isOption (w : Str) : Bool :=
  match w with
  | '-' :: _ :: _ => true
  | _ => false

/-- The part before the first `=`, and the part after it if there is one. Reading of the command
line by clap for the declarations in dandy-cli/src/main.rs:21-275; called at
dandy-cli/src/main.rs:284. -/
def splitEq : Str → Str × Option Str
  | [] => ([], none)
  | c :: cs => if c = '=' then ([], some cs) else ((c :: (splitEq cs).1), (splitEq cs).2)

/-- The letters after a single dash: flags, up to an option with a value, which is the rest of the word (without a leading `=`) or the
next word. The options read (with the empty text for flags) and the option that waits for its value.
Reading of the command line by clap for the declarations in dandy-cli/src/main.rs:21-275; called
at dandy-cli/src/main.rs:284. -/
def readShort (ds : List Opt) : Str → Option (List (Str × Str) × Option Str)
  | [] => some ([], none)
  | c :: cs =>
    match ds.find? (fun d => d.short = some c) with
    | none => none
    | some d =>
      if d.value then
        match cs with
        | [] => some ([], some d.long)
        | '=' :: v => some ([(d.long, v)], none)
        | v => some ([(d.long, v)], none)
      else (readShort ds cs).map (fun r => ((d.long, []) :: r.1, r.2))

/-- A word after two dashes. Reading of the command line by clap for the declarations in
dandy-cli/src/main.rs:21-275; called at dandy-cli/src/main.rs:284. -/
def readLong (ds : List Opt) (body : Str) : Option (List (Str × Str) × Option Str) :=
  match ds.find? (fun d => d.long = (splitEq body).1) with
  | none => none
  | some d =>
    if d.value then
      match (splitEq body).2 with
      | some v => some ([(d.long, v)], none)
      | none => some ([], some d.long)
    else
      match (splitEq body).2 with
      | some _ => none
      | none => some ([(d.long, [])], none)

/-- A word that begins with a dash. Reading of the command line by clap for the declarations in
dandy-cli/src/main.rs:21-275; called at dandy-cli/src/main.rs:284. -/
def readOption (ds : List Opt) (w : Str) : Option (List (Str × Str) × Option Str) :=
  match w with
  | '-' :: '-' :: body => readLong ds body
  | '-' :: cs => readShort ds cs
  | _ => none

/-- The options with their values (in order) and the other arguments. `pending`: the option that waits for its value.
Reading of the command line by clap for the declarations in dandy-cli/src/main.rs:21-275; called
at dandy-cli/src/main.rs:284. -/
def scan (ds : List Opt) (pending : Option Str) : List Str → Option (List (Str × Str) × List Str)
  | [] => if pending = none then some ([], []) else none
  | w :: ws =>
    match pending with
    | some name => if isOption w then none else (scan ds none ws).map (fun r => ((name, w) :: r.1, r.2))
    | none =>
      if w = ['-', '-'] then some ([], ws)
      else if isOption w then (readOption ds w).bind (fun o => (scan ds o.2 ws).map (fun r => (o.1 ++ r.1, r.2)))
      else (scan ds none ws).map (fun r => (r.1, w :: r.2))

/-- The same for the arguments of the program: up to the name of the command. The options, the name and the words after it.
Reading of the command line by clap for the declarations in dandy-cli/src/main.rs:21-275; called
at dandy-cli/src/main.rs:284. -/
def scanTop (ds : List Opt) (pending : Option Str) : List Str → Option (List (Str × Str) × Str × List Str)
  | [] => none
  | w :: ws =>
    match pending with
    | some name => if isOption w then none else (scanTop ds none ws).map (fun r => ((name, w) :: r.1, r.2))
    | none =>
      if w = ['-', '-'] then none
      else if isOption w then (readOption ds w).bind (fun o => (scanTop ds o.2 ws).map (fun r => (o.1 ++ r.1, r.2)))
      else some ([], w, ws)

/-! ## Values -/

/-- dandy-cli/src/automata.rs:29-35: the values of `AutomataType` as derived by `ValueEnum`. -/
def parseType (v : Str) : Option AutomataType :=
  if v = c!"dfa" then some .dfa else if v = c!"nfa" then some .nfa else if v = c!"regex" then some .regex else none

/-- dandy-cli/src/main.rs:128-133: the values of `TestType` as derived by `ValueEnum`. -/
def parseTestType (v : Str) : Option TestType :=
  if v = c!"lines" then some .lines else if v = c!"files" then some .files else none

/-- `usize::from_str` on a 64 bit system: an optional plus sign and decimal digits. Reading of
the command line by clap for the declarations in dandy-cli/src/main.rs:21-275; called at
dandy-cli/src/main.rs:284. -/
def parseUsize (v : Str) : Option Nat :=
  let ds := if v.head? = some '+' then v.tail else v
  if ds ≠ [] ∧ ds.all Char.isDigit ∧ ds.foldl (fun n c => 10 * n + (c.toNat - 48)) 0 < 2 ^ 64 then
    some (ds.foldl (fun n c => 10 * n + (c.toNat - 48)) 0)
  else none

/-- Values of type `PathBuf`: clap does not allow the empty text. Reading of the command line by
clap for the declarations in dandy-cli/src/main.rs:21-275; called at dandy-cli/src/main.rs:284. -/
def parsePath (v : Str) : Option Str := if v = [] then none else some v

/-- The value of an option that may be given (`Option<T>`). Reading of the command line by clap
for the declarations in dandy-cli/src/main.rs:21-275; called at dandy-cli/src/main.rs:284. -/
def optionalValue {α : Type} (os : List (Str × Str)) (name : Str) (parse : Str → Option α) : Option (Option α) :=
  match os.lookup name with
  | none => some none
  | some v => (parse v).map some

/-- The value of an option with a default value. Reading of the command line by clap for the
declarations in dandy-cli/src/main.rs:21-275; called at dandy-cli/src/main.rs:284. -/
def withDefault {α : Type} (os : List (Str × Str)) (name : Str) (parse : Str → Option α) (default : α) : Option α :=
  match os.lookup name with
  | none => some default
  | some v => parse v

/-- Is a flag given? Reading of the command line by clap for the declarations in
dandy-cli/src/main.rs:21-275; called at dandy-cli/src/main.rs:284. -/
def flag (os : List (Str × Str)) (name : Str) : Bool := (os.lookup name).isSome

/-- An option must not be given twice. Reading of the command line by clap for the declarations
in dandy-cli/src/main.rs:21-275; called at dandy-cli/src/main.rs:284. -/
def noRepetition (os : List (Str × Str)) : Option Unit := if (os.map (·.1)).Nodup then some () else none

/-- dandy-cli/src/main.rs:182-231: the arguments of `equivalence`. -/
def equivalenceArgs (ws : List Str) : Option EquivalenceArgs := do
  let (os, ps) ← scan equivalenceOpts none ws
  noRepetition os
  let inType ← optionalValue os c!"in-type" parseType
  let type ← withDefault os c!"type" parseType .dfa
  let pathLength ← optionalValue os c!"path-length" parseUsize
  match ps with
  | [] => none
  | automata :: files =>
    let automata ← parsePath automata
    let files ← files.mapM parsePath
    return ⟨inType, type, flag os c!"minimized", flag os c!"bool", pathLength, automata, files⟩

/-- dandy-cli/src/main.rs:233-275: the arguments of the binary operations. -/
def binaryArgs (ws : List Str) : Option BinaryOpArgs := do
  let (os, ps) ← scan binaryOpts none ws
  noRepetition os
  let type ← withDefault os c!"type" parseType .dfa
  let secondType ← optionalValue os c!"second-type" parseType
  let comparedType ← withDefault os c!"compared-type" parseType .dfa
  let enumerate ← optionalValue os c!"enumerate" parseUsize
  match ps with
  | [first, second] => return ⟨type, secondType, comparedType, flag os c!"minimized", enumerate, ← parsePath first, ← parsePath second, none⟩
  | [first, second, third] =>
    return ⟨type, secondType, comparedType, flag os c!"minimized", enumerate, ← parsePath first, ← parsePath second, some (← parsePath third)⟩
  | _ => none

/-- dandy-cli/src/main.rs:72-82: the arguments of `enumerate-regex`. -/
def enumerateRegexArgs (ws : List Str) : Option EnumerateRegexArgs := do
  let (os, ps) ← scan enumerateRegexOpts none ws
  noRepetition os
  let amount ← withDefault os c!"amount" parseUsize 20
  match ps with
  | [regex] => return ⟨amount, regex⟩
  | _ => none

/-- dandy-cli/src/main.rs:84-101: the arguments of `enumerate`. -/
def enumerateFileArgs (ws : List Str) : Option EnumerateFileArgs := do
  let (os, ps) ← scan enumerateFileOpts none ws
  noRepetition os
  let type ← withDefault os c!"type" parseType .dfa
  let amount ← withDefault os c!"amount" parseUsize 30
  match ps with
  | [file] => return ⟨type, amount, ← parsePath file⟩
  | _ => none

/-- dandy-cli/src/main.rs:103-126: the arguments of `test-file`. -/
def testFileArgs (ws : List Str) : Option TestFileArgs := do
  let (os, ps) ← scan testFileOpts none ws
  noRepetition os
  let type ← withDefault os c!"type" parseType .dfa
  let testType ← withDefault os c!"test-type" parseTestType .lines
  match ps with
  | [] => none
  | automata :: files => return ⟨type, testType, ← parsePath automata, ← files.mapM parsePath⟩

/-- dandy-cli/src/main.rs:40-70: the commands, named after the variants of `Operation` (in kebab case) except for `enumerate`. -/
def command (name : Str) (ws : List Str) : Option Operation :=
  if name = c!"equivalence" then (equivalenceArgs ws).map .equivalence
  else if name = c!"union" then (binaryArgs ws).map .union
  else if name = c!"intersection" then (binaryArgs ws).map .intersection
  else if name = c!"difference" then (binaryArgs ws).map .difference
  else if name = c!"symmetric-difference" then (binaryArgs ws).map .symmetricDifference
  else if name = c!"enumerate-regex" then (enumerateRegexArgs ws).map .enumerateRegex
  else if name = c!"enumerate" then (enumerateFileArgs ws).map .enumerateFile
  else if name = c!"test-file" then (testFileArgs ws).map .testFile
  else none

/-- dandy-cli/src/main.rs:284 `DandyArgs::parse()`, for the words after the name of the program. -/
def parse (ws : List Str) : Option Args := do
  let (os, name, rest) ← scanTop topOpts none ws
  noRepetition os
  let outFile ← optionalValue os c!"out" parsePath
  return ⟨outFile, flag os c!"less-logs", ← command name rest⟩

end Clap
end Cli
end Dandy
