import Verif.Model.Cli
import Verif.Spec.Automata
import Verif.Spec.Words
import Verif.Spec.Regex
import Verif.Spec.RegexGrammar
import Verif.Spec.TableText
import Verif.Spec.ParseErrors
import Verif.Spec.Validate
/-! # Specification of the command line tool -/

namespace Dandy
namespace Cli

/-- The iteration orders are orders of the sets. -/
structure MinOrd.Valid (o : MinOrd) : Prop where
  u : ∀ l, (o.u l).Perm l
  m : ∀ l, (o.m l).Perm l
  k : ∀ l, (o.k l).Perm l

/-- The iteration orders are orders of the sets. -/
structure EpsOrd.Valid (o : EpsOrd) : Prop where
  t : ∀ s c l, (o.t s c l).Perm l
  dead : ∀ l, (o.dead l).Perm l

namespace Automata

/-- A valid automaton, or any regular expression. -/
def Valid : Automata → Prop
  | dfa d => d.WF
  | nfa n => n.WF
  | regex _ => True

/-- The language of an automaton or expression. -/
def Lang : Automata → Word → Prop
  | dfa d => d.Lang
  | nfa n => n.Lang
  | regex t => Matches t

/-- The elements of the alphabet (for an expression: its graphemes, possibly repeated). -/
def elems : Automata → List Str
  | dfa d => d.alphabet
  | nfa n => n.alphabet
  | regex t => t.graphemes

/-- The alphabet in its order (for an expression: the order of the first occurrences). -/
def HasAlphabet : Automata → List Str → Prop
  | dfa d, l => l = d.alphabet
  | nfa n, l => l = n.alphabet
  | regex t, l => l.Nodup ∧ (∀ g, g ∈ l ↔ g ∈ t.graphemes) ∧ l.Pairwise (fun a b => t.graphemes.idxOf a < t.graphemes.idxOf b)

/-- Same alphabet set and same language. -/
def Same (a b : Automata) : Prop := SameElems a.elems b.elems ∧ ∀ w, a.Lang w ↔ b.Lang w

end Automata

/-- No DFA with the same alphabet set and language has fewer states. -/
def Minimal (d : Dfa) : Prop :=
  ∀ o : Dfa, o.WF → SameElems o.alphabet d.alphabet → (∀ w, o.Lang w ↔ d.Lang w) → d.states.length ≤ o.states.length

/-- `ws` are the first `n` words of `L` (all of them, if there are at most `n`), in length-lexicographic order. -/
structure FirstWords (alphabet : List Str) (L : Word → Prop) (n : Nat) (ws : List Word) : Prop where
  sound : ∀ w ∈ ws, L w
  sorted : ws.Pairwise (ShortLex alphabet)
  short : ws.length ≤ n
  complete : ∀ v, L v → v ∈ ws ∨ (ws.length = n ∧ ∀ w ∈ ws, ShortLex alphabet w v)

/-- How a word is shown. -/
def shown (w : Word) : Str := if w.flatten = [] then c!"(empty word)" else w.flatten

/-- The operations on languages. -/
def BinaryOperation.Combine : BinaryOperation → Prop → Prop → Prop
  | .union, p, q => p ∨ q
  | .intersection, p, q => p ∧ q
  | .difference, p, q => p ∧ ¬ q
  | .symmetricDifference, p, q => ¬ (p ↔ q)

/-- The output lines, without those only logged. -/
def outs (lines : List Line) : List Str := lines.filterMap (fun l => match l with | .out s => some s | .log _ => none)

/-- `Lines text ls`: `ls` are the lines of the text. A line ends with `\n` or `\r\n`; the last one may have no end. -/
inductive Lines : Str → List Str → Prop
  | nil : Lines [] []
  | last {t : Str} : t ≠ [] → '\n' ∉ t → Lines t [t]
  | lf {l rest : Str} {ls : List Str} : '\n' ∉ l → l.getLast? ≠ some '\r' → Lines rest ls → Lines (l ++ '\n' :: rest) (l :: ls)
  | crlf {l rest : Str} {ls : List Str} : '\n' ∉ l → Lines rest ls → Lines (l ++ '\r' :: '\n' :: rest) (l :: ls)

/-- How a kind of automaton is called. -/
def kindName : AutomataType → Str
  | .dfa => c!"DFA"
  | .nfa => c!"NFA"
  | .regex => c!"Regex"

/-- How several of a kind are called. -/
def kindNames : AutomataType → Str
  | .dfa => c!"DFAs"
  | .nfa => c!"NFAs"
  | .regex => c!"Regexes"

/-- How an operation is called at the beginning of a line. -/
def opName : BinaryOperation → Str
  | .union => c!"Union"
  | .intersection => c!"Intersection"
  | .difference => c!"Difference"
  | .symmetricDifference => c!"Symmetric difference"

/-- How an operation is called inside a line. -/
def opNameInside : BinaryOperation → Str
  | .union => c!"union"
  | .intersection => c!"intersection"
  | .difference => c!"difference"
  | .symmetricDifference => c!"symmetric difference"

/-- What `--enumerate` has to print for the result of an operation with the given language. -/
def EnumReport (op : BinaryOperation) (alphabet : List Str) (L : Word → Prop) : Option Nat → List Str → Prop
  | none, report => report = []
  | some n, report => ∃ ws, FirstWords alphabet L n ws ∧
      report = (c!"First " ++ numStr n ++ c!" words in the language of the " ++ opNameInside op ++ c!":") :: (ws.map shown ++
        if ws.length < n then [c!"(only " ++ numStr ws.length ++ c!" words exists in the " ++ opNameInside op ++ c!")"] else [])

/-- What the comparison with a third automaton has to print, and how the command ends. -/
def CompareReport (env : Env) (op : BinaryOperation) (args : BinaryOpArgs) (elems : List Str) (L : Word → Prop)
    (report : List Str) (result : Except BinaryError Unit) : Prop :=
  match args.compareAgainst with
  | none => report = [] ∧ result = .ok ()
  | some path =>
    match Automata.loadFile env path args.comparedType with
    | .error e => report = [] ∧ result = .error (.compareTo e)
    | .ok b => result = .ok () ∧ ∃ verdict,
        ((SameElems elems b.elems ∧ ∀ w, L w ↔ b.Lang w) ∧ verdict = c!"EQUIVALENT" ∨
          ¬ (SameElems elems b.elems ∧ ∀ w, L w ↔ b.Lang w) ∧ verdict = c!"NOT EQUIVALENT") ∧
        report = [opName op ++ c!" of the two provided " ++ kindNames args.type ++ c!" is " ++ verdict ++ c!" to the third " ++
          kindName args.comparedType]

open Classical in
/-- What has to be printed for a file in `lines` mode. `A l`: the line is accepted. -/
def LinesReport (A : Str → Prop) (file content : Str) (report : List Str) : Prop :=
  ∃ ls marks, Lines content ls ∧
    List.Forall₂ (fun l m => A l ∧ m = c!"[ OK ] " ++ l ∨ ¬ A l ∧ m = c!"[FAIL] " ++ l) ls marks ∧
    report = (c!"Testing file " ++ file ++ c!":") :: (marks ++
      [numStr (ls.filter (fun l => decide (A l))).length ++ c!"/" ++ numStr ls.length ++ c!" lines passed in file " ++ file ++ c!":"])

/-- What has to be printed for a file in `files` mode. -/
def FilesReport (A : Str → Prop) (file content : Str) (report : List Str) : Prop :=
  ∃ ls, Lines content ls ∧
    ((∀ l ∈ ls, A l) ∧ report = [c!"[ OK ] " ++ file] ∨
      ∃ pre c post, ls = pre ++ c :: post ∧ (∀ l ∈ pre, A l) ∧ ¬ A c ∧ report = [c!"[FAIL] " ++ file ++ c!" failed on " ++ c])

/-- How a defect of a table is told. -/
def defectText : ParseError → Str
  | .wrongNumberOfTransitions state has expected =>
    c!"Wrong number of transitions for state '" ++ state ++ c!"': has " ++ numStr has ++ c!" expected " ++ numStr expected
  | .transitionDoesNotExist state target => c!"State '" ++ target ++ c!"' does not exist (in transition from state '" ++ state ++ c!"')"
  | .missingInitialState => c!"There is no initial state"
  | .multipleInitialStates => c!"There are two (or more) initial states"
  | .duplicateAlphabetSymbol element => c!"'" ++ element ++ c!"' appears twice in the alphabet"
  | .duplicateStateDefinition state => c!"State '" ++ state ++ c!"' defined multiple times"

/-- How a verdict is told. -/
def verdictText : EquivalenceResult → Str
  | .failedToRead reason => c!"Failed to read (" ++ reason ++ c!")"
  | .failedToParse reason => c!"Failed to parse (" ++ reason ++ c!")"
  | .failedToValidate defect => c!"Failed to validate (" ++ defectText defect ++ c!")"
  | .notEquivalent => c!"Not Equivalent"
  | .notMinimized => c!"Equivalent but not minimized"
  | .equivalent => c!"Equivalent"

/-- How a file that cannot be loaded is reported. -/
def loadVerdict : LoadError → EquivalenceResult
  | .dfaCompile e => .failedToValidate e
  | .nfaCompile e => .failedToValidate e
  | .dfaParse e | .nfaParse e | .regexParse e => .failedToParse e.text
  | .file _ msg => .failedToRead msg

/-- What `equivalence` has to report for a file, given the reference. -/
def Verdict (env : Env) (ref : Automata) (args : EquivalenceArgs) (path : Str) (r : EquivalenceResult) : Prop :=
  match env.read path with
  | .error msg => r = .failedToRead msg
  | .ok text =>
    match Automata.load env.cl text args.type with
    | .error e => r = loadVerdict e
    | .ok sub =>
      (¬ ref.Same sub ∧ r = .notEquivalent) ∨
      (ref.Same sub ∧ (args.minimized = true ∧ ¬ (∀ d, sub = .dfa d → Minimal d)) ∧ r = .notMinimized) ∨
      (ref.Same sub ∧ ¬ (args.minimized = true ∧ ¬ (∀ d, sub = .dfa d → Minimal d)) ∧ r = .equivalent)

/-- The error of `equivalence` when the reference cannot be loaded. -/
def inputError : LoadError → EquivalenceError
  | .file _ msg => .inputFile msg
  | .dfaParse e => .dfaParse e
  | .dfaCompile e => .dfa e
  | .nfaParse e => .nfaParse e
  | .nfaCompile e => .nfa e
  | .regexParse e => .regexParse e

/-- The line reporting a verdict for a file: the (shortened) path, if it is to be shown, and the verdict. -/
def ShowsVerdict (args : EquivalenceArgs) (path : Str) (r : EquivalenceResult) (line : Str) : Prop :=
  ∃ pre text, line = pre ++ text ∧
    (lastNComponents path args.pathLength = none ∧ pre = [] ∨ ∃ p, lastNComponents path args.pathLength = some p ∧ pre = p ++ c!": ") ∧
    (args.bool = true → r = .equivalent ∧ text = c!"true" ∨ r ≠ .equivalent ∧ text = c!"false") ∧
    (args.bool = false → text = verdictText r)

/-- `text` is a text of the automaton or expression `a`. -/
def IsTextOf (cl : Str → Nat) (text : Str) : Automata → Prop
  | .dfa d => ∃ p : ParsedDfa, TableText.DfaText p text ∧ p.Legal ∧ p.Describes d
  | .nfa n => ∃ p : ParsedNfa, TableText.NfaText p text ∧ p.Legal ∧ p.Describes n
  | .regex t => ∃ core L, Trimmed text core ∧ ExprL cl core [] L t.graphemes ∧ ∀ w, Matches t w ↔ w ∈ L

/-- The text can be parsed as a table or an expression (it may be a table with defects). -/
def Parses (cl : Str → Nat) (ty : AutomataType) (text : Str) : Prop :=
  match ty with
  | .dfa => ∃ p : ParsedDfa, TableText.DfaText p text
  | .nfa => ∃ p : ParsedNfa, TableText.NfaText p text
  | .regex => ∃ core L gs, Trimmed text core ∧ ExprL cl core [] L gs

/-- The error is the reason why the text cannot be loaded. -/
def LoadError.Explains (cl : Str → Nat) (text : Str) (ty : AutomataType) : LoadError → Prop
  | .file _ _ => False
  | .dfaParse e => ty = .dfa ∧ (¬ ∃ p : ParsedDfa, TableText.DfaText p text) ∧
    TableText.FirstError False TableText.NameItem TableText.DfaRow text e
  | .dfaCompile e => ty = .dfa ∧ ∃ p : ParsedDfa, TableText.DfaText p text ∧ p.HasDefect e
  | .nfaParse e => ty = .nfa ∧ (¬ ∃ p : ParsedNfa, TableText.NfaText p text) ∧
    TableText.FirstError True TableText.HeadItem TableText.NfaRow text e
  | .nfaCompile e => ty = .nfa ∧ ∃ p : ParsedNfa, TableText.NfaText p text ∧ p.HasDefect e
  | .regexParse e => ty = .regex ∧ ∀ core, Trimmed text core → (¬ ∃ L gs, ExprL cl core [] L gs) ∧
    ((core = [] ∧ e = ⟨[], .fail⟩) ∨ (core ≠ [] ∧ (∀ r L gs, ¬ ExprL cl core r L gs) ∧ e = ⟨core, .verify⟩) ∨
      (e.code = .eof ∧ e.input ≠ [] ∧ (∃ L gs, ExprL cl core e.input L gs) ∧ ∀ r L gs, ExprL cl core r L gs → e.input.length ≤ r.length))

end Cli
end Dandy
