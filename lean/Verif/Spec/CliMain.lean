import Verif.Model.CliMain
import Verif.Spec.Cli
/-! # Specification of the program -/

namespace Dandy
namespace Cli

/-- The iteration orders are orders of the sets. -/
structure RunOrd.Valid (o : RunOrd) : Prop where
  product : ∀ l, (o.product l).Perm l
  min1 : o.min1.Valid
  min2 : o.min2.Valid
  min3 : o.min3.Valid
  eps : o.eps.Valid

/-- How error messages call a command. -/
def Operation.name : Operation → Str
  | .equivalence _ => c!"Equivalence"
  | .union _ => c!"Union"
  | .intersection _ => c!"Intersection"
  | .difference _ => c!"Difference"
  | .symmetricDifference _ => c!"Symmetric difference"
  | .enumerateRegex _ => c!"enumerating regex"
  | .enumerateFile _ => c!"enumerating file"
  | .testFile _ => c!"testing file"

/-- The files that a binary operation reads. -/
def BinaryOpArgs.inputs (b : BinaryOpArgs) : List Str := b.first :: b.second :: b.compareAgainst.toList

/-- The files that a command reads. -/
def Operation.inputs : Operation → List Str
  | .equivalence a => a.automata :: a.files
  | .union b => b.inputs
  | .intersection b => b.inputs
  | .difference b => b.inputs
  | .symmetricDifference b => b.inputs
  | .enumerateRegex _ => []
  | .enumerateFile a => [a.file]
  | .testFile a => a.automata :: a.files

/-- The file contains a text of the automaton. -/
def Contains (h : Host) (w : World) (path : Str) (ty : AutomataType) (a : Automata) : Prop :=
  ∃ text, w.read path = .ok text ∧ a.getType = ty ∧ IsTextOf h.cl text a

/-- The file contains a legal text. -/
def Loadable (h : Host) (w : World) (path : Str) (ty : AutomataType) : Prop := ∃ a, Contains h w path ty a

/-- When a binary operation has to fail. -/
def BinaryOpArgs.Fails (h : Host) (w : World) (b : BinaryOpArgs) : Prop :=
  ¬ Loadable h w b.first b.type ∨ ¬ Loadable h w b.second (b.secondType.getD b.type) ∨
  (∃ a1 a2, Contains h w b.first b.type a1 ∧ Contains h w b.second (b.secondType.getD b.type) a2 ∧ ¬ SameElems a1.elems a2.elems) ∨
  ∃ path, b.compareAgainst = some path ∧ ¬ Loadable h w path b.comparedType

/-- When a command has to fail. -/
def Operation.Fails (h : Host) (w : World) : Operation → Prop
  | .equivalence a => ¬ Loadable h w a.automata (a.inType.getD a.type) ∨ a.minimized = true ∧ a.type ≠ .dfa
  | .union b => b.Fails h w
  | .intersection b => b.Fails h w
  | .difference b => b.Fails h w
  | .symmetricDifference b => b.Fails h w
  | .enumerateRegex a => ¬ ∃ r, IsTextOf h.cl a.regex (.regex r)
  | .enumerateFile a => ¬ Loadable h w a.file a.type
  | .testFile a => ¬ Loadable h w a.automata a.type ∨ ∃ f ∈ a.files, ∃ msg, w.read f = .error msg

/-- How the reason for which a file cannot be loaded is told. (For NFAs the messages speak of DFAs.) -/
def toldLoad : LoadError → Str
  | .file path msg => c!"Error loading file " ++ path ++ c!": " ++ msg
  | .dfaParse e | .nfaParse e => c!"Error parsing DFA: " ++ e.text
  | .dfaCompile e | .nfaCompile e => c!"Error compiling DFA: " ++ defectText e
  | .regexParse e => c!"Error parsing Regex: " ++ e.text

/-- How the reason for which the first file of `equivalence` cannot be loaded is told: the same with other words, and with the rest of the
file in quotes. -/
def toldReference (plain : Char → Bool) : LoadError → Str
  | .file _ msg => c!"Error reading input file: " ++ msg
  | .dfaParse e => c!"Error parsing DFA: " ++ e.debug plain
  | .nfaParse e => c!"Error parsing NFA: " ++ e.debug plain
  | .regexParse e => c!"Error parsing regular expression: " ++ e.debug plain
  | .dfaCompile e => c!"Error compiling DFA: " ++ defectText e
  | .nfaCompile e => c!"Error compiling NFA: " ++ defectText e

/-- `e` is the reason why the file cannot be loaded: it cannot be read, or its text is not legal. -/
def Unloadable (h : Host) (w : World) (path : Str) (ty : AutomataType) (e : LoadError) : Prop :=
  (∃ msg, w.read path = .error msg ∧ e = .file path msg) ∨ ∃ text, w.read path = .ok text ∧ e.Explains h.cl text ty

/-- The message of a failing binary operation tells the first reason to fail. -/
def BinaryOpArgs.Reason (h : Host) (w : World) (b : BinaryOpArgs) (m : Str) : Prop :=
  (∃ e, Unloadable h w b.first b.type e ∧ m = c!"Error reading 1: " ++ toldLoad e) ∨
  (Loadable h w b.first b.type ∧ ∃ e, Unloadable h w b.second (b.secondType.getD b.type) e ∧ m = c!"Error reading 2: " ++ toldLoad e) ∨
  ∃ a1 a2, Contains h w b.first b.type a1 ∧ Contains h w b.second (b.secondType.getD b.type) a2 ∧
    ((¬ SameElems a1.elems a2.elems ∧ m = c!"Different alphabets in input DFAs, can't do product construction") ∨
     (SameElems a1.elems a2.elems ∧ ∃ path e, b.compareAgainst = some path ∧ Unloadable h w path b.comparedType e ∧
        m = c!"Error comparing with automata: " ++ toldLoad e))

/-- The message of a failing command tells the first reason to fail. -/
def Operation.Reason (h : Host) (w : World) : Operation → Str → Prop
  | .equivalence a, m => (∃ e, Unloadable h w a.automata (a.inType.getD a.type) e ∧ m = toldReference h.plain e) ∨
      (Loadable h w a.automata (a.inType.getD a.type) ∧ a.minimized = true ∧ a.type ≠ .dfa ∧
        m = c!"--minimized option can only be used when testing DFAs")
  | .union b, m => b.Reason h w m
  | .intersection b, m => b.Reason h w m
  | .difference b, m => b.Reason h w m
  | .symmetricDifference b, m => b.Reason h w m
  | .enumerateRegex a, m => ∃ e, (LoadError.regexParse e).Explains h.cl a.regex .regex ∧ m = e.text
  | .enumerateFile a, m => ∃ e, Unloadable h w a.file a.type e ∧ m = toldLoad e
  | .testFile a, m => (∃ e, Unloadable h w a.automata a.type e ∧ m = toldLoad e) ∨
      (Loadable h w a.automata a.type ∧ ∃ before f after, a.files = before ++ f :: after ∧
        (∀ g ∈ before, ∃ t, w.read g = .ok t) ∧ w.read f = .error m)

/-- The output file (if it can be created) is not one of the files that the command reads. -/
def Separate (h : Host) (w : World) (args : Args) : Prop :=
  ∀ out, args.outFile = some out → h.createError out = none → ∀ path ∈ args.command.inputs, w.file path ≠ w.file out

/-- The text of a line. -/
def Line.text : Line → Str
  | .log t => t
  | .out t => t

/-- Lines on the console. -/
def printed (lines : List Str) : Str := (lines.map (fun l => l ++ ['\n'])).flatten

/-- The command for a binary operation. -/
def BinaryOperation.command : BinaryOperation → BinaryOpArgs → Operation
  | .union => .union
  | .intersection => .intersection
  | .difference => .difference
  | .symmetricDifference => .symmetricDifference

end Cli
end Dandy
