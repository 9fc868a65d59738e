import Verif.Model.CliMain
/-!
# The warnings of dandy-cli/src/automata.rs `test_equivalence`

`Automata.testEquivalence` (`Verif/Model/Cli.lean`) is the result; here are the lines that the function prints to standard error on the way, and
where in a run of the program they appear. `main` (`Verif/Model/CliMain.lean`) leaves them out; C88 shows that there never are any.
-/

namespace Dandy
namespace Cli

/-- dandy-cli/src/automata.rs:217-223 `warn_minimized!`. -/
def warnMinimized (m : Bool) : List Str :=
  if m then [c!"Can only check minimization if the tested type is a DFA"] else []

/-- dandy-cli/src/automata.rs:206-215 `warn_minimized_check_type!`. -/
def warnMinimizedCheckType (m : Bool) (t : Automata) : List Str :=
  if t.getType = .dfa && m then
    [c!"Minimized option ignored: make sure the base automata is the correct type.",
      c!"This is most likely an internal error; please send a bug report"]
  else warnMinimized m

/-- dandy-cli/src/automata.rs:205-274 `test_equivalence`: the lines printed to standard error. -/
def Automata.testWarnings (a other : Automata) (minimized : Bool) : List Str :=
  match a.getType, other.getType with
  | .dfa, .dfa => []
  | .dfa, _ => warnMinimized minimized
  | .nfa, _ => warnMinimizedCheckType minimized other
  | .regex, _ =>
    [c!"Testing with Regex as base, this gives poor performance",
      c!"This is most likely an internal error; please send a bug report"] ++ warnMinimized minimized

/-- dandy-cli/src/equivalence.rs:153-161 `DandyTester::test_equivalence`: the lines printed to standard error. -/
def Tester.testWarnings (env : Env) (t : Tester) (file : Str) : List Str :=
  match env.read file with
  | .error _ => []
  | .ok f =>
    match Automata.loadTest env.cl f t.testType with
    | .error _ => []
    | .ok a => t.input.testWarnings a t.minimized

/-- dandy-cli/src/equivalence.rs:36-96 `equivalence`: the lines printed to standard error while the files are tested (61-65). -/
def equivalenceWarnings (env : Env) (o : MinOrd) (args : EquivalenceArgs) : List Str :=
  match env.read args.automata with
  | .error _ => []
  | .ok file =>
    match Tester.new env.cl o file args with
    | some (.ok tester) => args.files.flatMap (tester.testWarnings env)
    | _ => []

/-- dandy-cli/src/binary_op.rs:95-102, the comparison: the lines printed to standard error. -/
def compareWarnings (env : Env) (args : BinaryOpArgs) (combined : Dfa) : List Str :=
  match args.compareAgainst with
  | none => []
  | some path =>
    match Automata.loadFile env path args.comparedType with
    | .error _ => []
    | .ok compareTo => (Automata.dfa combined).testWarnings compareTo false

/-- dandy-cli/src/binary_op.rs:6-113 `binary_op`: the lines printed to standard error, as far as the function gets (see `binaryOpIn`). -/
def binaryWarnings (h : Host) (out : Option Nat) (w : World) (ord : List (Nat × Nat) → List (Nat × Nat)) (o1 o2 o3 : MinOrd)
    (noLog : Bool) (args : BinaryOpArgs) (op : BinaryOperation) : List Str :=
  match Automata.loadFile (h.env w) args.first args.type, Automata.loadFile (h.env w) args.second (args.secondType.getD args.type) with
  | .ok a1, .ok a2 => (do
      let (d1, l1) ← operand o1 noLog args.minimized 1 a1
      let (d2, l2) ← operand o2 noLog args.minimized 2 a2
      let combined ← (← op.apply ord d1 d2)
      let (combined, l3) ← showCombined o3 noLog op args combined
      let l4 ← enumerateCombined op combined args.enumerate
      return compareWarnings (h.env (w.write out (l1 ++ l2 ++ l3 ++ l4))) args combined : Option (List Str)).getD []
  | _, _ => []

/-- dandy-cli/src/main.rs:305-326, the dispatch: the lines printed to standard error during the command. The other commands do not call
`test_equivalence`. -/
def runWarnings (h : Host) (out : Option Nat) (w : World) (o : RunOrd) (args : Args) : List Str :=
  match args.command with
  | .equivalence a => equivalenceWarnings (h.env w) o.min1 a
  | .union b | .intersection b | .difference b | .symmetricDifference b =>
    match args.command.binaryOperation with
    | some operation => binaryWarnings h out w o.product o.min1 o.min2 o.min3 args.noLog b operation
    | none => []
  | .testFile _ | .enumerateRegex _ | .enumerateFile _ => []

/-- dandy-cli/src/main.rs:283-331 `main`: all lines on standard error, in this order: about the output file, during the command, and the
error of the command. `none`: panic. -/
def stderrLines (h : Host) (o : RunOrd) (w : World) (args : Args) : Option (List Str) := do
  let (out, w, messages) := openOut h w args.outFile
  let e ← runCommand h out w o args
  return messages ++ runWarnings h out w o args ++ (match e.result with | .ok _ => [] | .error t => [t])

end Cli
end Dandy
