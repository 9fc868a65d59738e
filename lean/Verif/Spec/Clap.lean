import Verif.Model.CliMain
import Mathlib.Data.Nat.Digits.Defs
/-!
# What a command line means

Independent of the parser: a grammar of command lines (items one after the other), and what the options and arguments of each command
say about the arguments of the program. Only the types of the arguments are taken from the model.
-/

namespace Dandy
namespace CommandLine

open Cli

/-- An option, by its long name and perhaps a letter. -/
structure Named where
  long : Str
  short : Option Char
deriving DecidableEq

/-- A word that begins with a dash, and is more than that. -/
def Dashed (w : Str) : Prop := ∃ rest, rest ≠ [] ∧ w = '-' :: rest

/-- Letters of flags, and the flags they stand for. -/
def Letters (flags : List Named) (cs : Str) (os : List (Str × Str)) : Prop :=
  List.Forall₂ (fun c o => ∃ d ∈ flags, d.short = some c ∧ o = (d.long, [])) cs os

/-- The ways to write options, as words, with the options given by them (with their values; flags with the empty text). -/
inductive Item (flags valued : List Named) : List Str → List (Str × Str) → Prop
  /-- `--minimized` -/
  | flag (d : Named) : d ∈ flags → Item flags valued [c!"--" ++ d.long] [(d.long, [])]
  /-- `--type nfa` -/
  | long (d : Named) (v : Str) : d ∈ valued → ¬ Dashed v → Item flags valued [c!"--" ++ d.long, v] [(d.long, v)]
  /-- `--type=nfa` -/
  | longEq (d : Named) (v : Str) : d ∈ valued → Item flags valued [c!"--" ++ d.long ++ c!"=" ++ v] [(d.long, v)]
  /-- `-m`, `-mb` -/
  | letters (cs : Str) (os : List (Str × Str)) : cs ≠ [] → Letters flags cs os → Item flags valued ['-' :: cs] os
  /-- `-t nfa`, `-mbt nfa` -/
  | letterNext (cs : Str) (os : List (Str × Str)) (d : Named) (c : Char) (v : Str) : Letters flags cs os → d ∈ valued → d.short = some c →
      ¬ Dashed v → Item flags valued ['-' :: (cs ++ [c]), v] (os ++ [(d.long, v)])
  /-- `-tnfa`, `-mbtnfa` -/
  | letterValue (cs : Str) (os : List (Str × Str)) (d : Named) (c : Char) (v : Str) : Letters flags cs os → d ∈ valued → d.short = some c →
      v ≠ [] → v.head? ≠ some '=' → Item flags valued ['-' :: (cs ++ c :: v)] (os ++ [(d.long, v)])
  /-- `-t=nfa`, `-mbt=nfa` -/
  | letterEq (cs : Str) (os : List (Str × Str)) (d : Named) (c : Char) (v : Str) : Letters flags cs os → d ∈ valued → d.short = some c →
      Item flags valued ['-' :: (cs ++ c :: '=' :: v)] (os ++ [(d.long, v)])

/-- Only options. -/
inductive Options (flags valued : List Named) : List Str → List (Str × Str) → Prop
  | nil : Options flags valued [] []
  | cons (w : List Str) (o : List (Str × Str)) (ws : List Str) (os : List (Str × Str)) : Item flags valued w o →
      Options flags valued ws os → Options flags valued (w ++ ws) (o ++ os)

/-- Options and other arguments, in any order. After `--` there are only other arguments. -/
inductive Written (flags valued : List Named) : List Str → List (Str × Str) → List Str → Prop
  | nil : Written flags valued [] [] []
  | rest (ws : List Str) : Written flags valued (c!"--" :: ws) [] ws
  | argument (w : Str) (ws : List Str) (os : List (Str × Str)) (ps : List Str) : ¬ Dashed w → Written flags valued ws os ps →
      Written flags valued (w :: ws) os (w :: ps)
  | option (w : List Str) (o : List (Str × Str)) (ws : List Str) (os : List (Str × Str)) (ps : List Str) : Item flags valued w o →
      Written flags valued ws os ps → Written flags valued (w ++ ws) (o ++ os) ps

/-! ## Values -/

/-- The texts for the types of automata. -/
def TypeText (v : Str) : AutomataType → Prop
  | .dfa => v = c!"dfa"
  | .nfa => v = c!"nfa"
  | .regex => v = c!"regex"

/-- The texts for the ways to test. -/
def TestTypeText (v : Str) : TestType → Prop
  | .lines => v = c!"lines"
  | .files => v = c!"files"

/-- The texts for numbers: decimal digits, perhaps after a plus sign; the number fits in 64 bits. -/
def NumberText (v : Str) (n : Nat) : Prop :=
  ∃ ds : List Nat, ds ≠ [] ∧ (∀ d ∈ ds, d < 10) ∧ Nat.ofDigits 10 ds = n ∧ n < 2 ^ 64 ∧
    (v = ds.reverse.map (fun d => Char.ofNat (48 + d)) ∨ v = '+' :: ds.reverse.map (fun d => Char.ofNat (48 + d)))

/-- The texts for paths. -/
def PathText (v p : Str) : Prop := v = p ∧ p ≠ []

/-- No option is given twice. -/
def Once (os : List (Str × Str)) : Prop := (os.map Prod.fst).Nodup

/-- The value of an option, if it is given. -/
def Value {α : Type} (os : List (Str × Str)) (name : Str) (text : Str → α → Prop) (x : Option α) : Prop :=
  match x with
  | none => ∀ v, (name, v) ∉ os
  | some y => ∃ v, (name, v) ∈ os ∧ text v y

/-- The value of an option that has a default. -/
def ValueOr {α : Type} (os : List (Str × Str)) (name : Str) (text : Str → α → Prop) (default : α) (x : α) : Prop :=
  Value os name text (some x) ∨ Value os name text none ∧ x = default

/-- Is the flag given? -/
def FlagGiven (os : List (Str × Str)) (name : Str) (b : Bool) : Prop := b = true ↔ ∃ v, (name, v) ∈ os

/-! ## The commands -/

/-- `equivalence`. -/
def EquivalenceLine (ws : List Str) (a : EquivalenceArgs) : Prop :=
  ∃ os, Written [⟨c!"minimized", some 'm'⟩, ⟨c!"bool", some 'b'⟩]
      [⟨c!"in-type", some 'i'⟩, ⟨c!"type", some 't'⟩, ⟨c!"path-length", some 'p'⟩] ws os (a.automata :: a.files) ∧
    Once os ∧ Value os c!"in-type" TypeText a.inType ∧ ValueOr os c!"type" TypeText .dfa a.type ∧ FlagGiven os c!"minimized" a.minimized ∧
    FlagGiven os c!"bool" a.bool ∧ Value os c!"path-length" NumberText a.pathLength ∧ ∀ p ∈ a.automata :: a.files, p ≠ []

/-- `union`, `intersection`, `difference`, `symmetric-difference`. -/
def BinaryLine (ws : List Str) (a : BinaryOpArgs) : Prop :=
  ∃ os, Written [⟨c!"minimized", some 'm'⟩]
      [⟨c!"type", some 't'⟩, ⟨c!"second-type", some 's'⟩, ⟨c!"compared-type", none⟩, ⟨c!"enumerate", some 'e'⟩] ws os
      (a.first :: a.second :: a.compareAgainst.toList) ∧
    Once os ∧ ValueOr os c!"type" TypeText .dfa a.type ∧ Value os c!"second-type" TypeText a.secondType ∧
    ValueOr os c!"compared-type" TypeText .dfa a.comparedType ∧ FlagGiven os c!"minimized" a.minimized ∧
    Value os c!"enumerate" NumberText a.enumerate ∧ ∀ p ∈ a.first :: a.second :: a.compareAgainst.toList, p ≠ []

/-- `enumerate-regex`. -/
def EnumerateRegexLine (ws : List Str) (a : EnumerateRegexArgs) : Prop :=
  ∃ os, Written [] [⟨c!"amount", some 'n'⟩] ws os [a.regex] ∧ Once os ∧ ValueOr os c!"amount" NumberText 20 a.amount

/-- `enumerate`. -/
def EnumerateFileLine (ws : List Str) (a : EnumerateFileArgs) : Prop :=
  ∃ os, Written [] [⟨c!"type", none⟩, ⟨c!"amount", some 'a'⟩] ws os [a.file] ∧ Once os ∧ ValueOr os c!"type" TypeText .dfa a.type ∧
    ValueOr os c!"amount" NumberText 30 a.amount ∧ a.file ≠ []

/-- `test-file`. -/
def TestFileLine (ws : List Str) (a : TestFileArgs) : Prop :=
  ∃ os, Written [] [⟨c!"type", none⟩, ⟨c!"test-type", some 't'⟩] ws os (a.automata :: a.files) ∧ Once os ∧
    ValueOr os c!"type" TypeText .dfa a.type ∧ ValueOr os c!"test-type" TestTypeText .lines a.testType ∧
    ∀ p ∈ a.automata :: a.files, p ≠ []

/-- The name of a command and the words after it. -/
def CommandWords (name : Str) (ws : List Str) : Operation → Prop
  | .equivalence a => name = c!"equivalence" ∧ EquivalenceLine ws a
  | .union a => name = c!"union" ∧ BinaryLine ws a
  | .intersection a => name = c!"intersection" ∧ BinaryLine ws a
  | .difference a => name = c!"difference" ∧ BinaryLine ws a
  | .symmetricDifference a => name = c!"symmetric-difference" ∧ BinaryLine ws a
  | .enumerateRegex a => name = c!"enumerate-regex" ∧ EnumerateRegexLine ws a
  | .enumerateFile a => name = c!"enumerate" ∧ EnumerateFileLine ws a
  | .testFile a => name = c!"test-file" ∧ TestFileLine ws a

/-- The options of the program, given before the name of the command. -/
def ProgramOptions (ws : List Str) (os : List (Str × Str)) : Prop :=
  Options [⟨c!"less-logs", none⟩] [⟨c!"out", some 'o'⟩] ws os

/-- A whole command line (without the name of the program): options of the program, the name of a command, and what belongs to it. -/
def ProgramLine (ws : List Str) (args : Args) : Prop :=
  ∃ top os name rest, ws = top ++ name :: rest ∧ ProgramOptions top os ∧ Once os ∧ Value os c!"out" PathText args.outFile ∧
    FlagGiven os c!"less-logs" args.noLog ∧ CommandWords name rest args.command

end CommandLine
end Dandy
