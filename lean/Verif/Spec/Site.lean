import Verif.Model.Site
import Verif.Spec.Cli
import Verif.Spec.Backends
import Verif.Spec.TableText
/-!
# Specification of the page
-/

namespace Dandy
namespace Site
open Cli (AutomataType Automata IsTextOf)

/-- The text can be read. -/
def Legal (cl : Str → Nat) (ty : AutomataType) (t : Str) : Prop := ∃ a : Automata, a.getType = ty ∧ IsTextOf cl t a

/-- The texts can be read, and are texts of automata with the same alphabet (as a set) and the same language. -/
def SameTexts (cl : Str → Nat) (ty : AutomataType) (t u : Str) : Prop :=
  ∃ a b : Automata, a.getType = ty ∧ b.getType = ty ∧ IsTextOf cl t a ∧ IsTextOf cl u b ∧ a.Same b

/-- How an error is told. -/
def shownError (plain : Char → Bool) : Cli.LoadError → Str
  | .file _ msg => msg
  | .dfaParse e => c!"Error parsing DFA: " ++ e.debug plain
  | .nfaParse e => c!"Error parsing NFA: " ++ e.debug plain
  | .regexParse e => c!"Error parsing Regex: " ++ e.debug plain
  | .dfaCompile e => Cli.defectText e
  | .nfaCompile e => Cli.defectText e

/-- `m` tells why the text `t` cannot be read. -/
def Tells (cl : Str → Nat) (plain : Char → Bool) (ty : AutomataType) (t m : Str) : Prop :=
  ∃ e : Cli.LoadError, e.Explains cl t ty ∧ m = shownError plain e

/-- The part of the error report about one of the texts: nothing for a legal text, otherwise a line naming it and telling the reason. -/
def ErrorPart (cl : Str → Nat) (plain : Char → Bool) (ty : AutomataType) (which t e : Str) : Prop :=
  Legal cl ty t ∧ e = [] ∨ ¬ Legal cl ty t ∧ ∃ m, Tells cl plain ty t m ∧ e = c!"Error parsing " ++ which ++ c!": " ++ m ++ c!"\n"

/-- What the button and the error report show after comparing the texts `t` and `u`. -/
structure Checked (cl : Str → Nat) (plain : Char → Bool) (ty : AutomataType) (which1 which2 t u label errors : Str) : Prop where
  errors : ∃ e1 e2, errors = e1 ++ e2 ∧ ErrorPart cl plain ty which1 t e1 ∧ ErrorPart cl plain ty which2 u e2
  same : SameTexts cl ty t u → label = c!"Equivalent"
  different : Legal cl ty t → Legal cl ty u → ¬ SameTexts cl ty t u → label = c!"Not equivalent"
  illegal : ¬ (Legal cl ty t ∧ Legal cl ty u) → label = c!"Fix errors first!"

/-- The orders chosen during a click are orders of the elements. -/
structure Orders.Valid (o : Orders) : Prop where
  min : o.min.Valid
  draw : ∀ l, (o.draw l).Perm l

/-- The orders in an event are orders of the elements. -/
def Event.Valid : Event → Prop
  | .edit _ _ => True
  | .click _ o => o.Valid

/-- The number of objects kept by the wasm module. -/
def Page.objects (p : Page) : Nat := p.store.dfas.length + p.store.nfas.length + p.store.regexes.length

open Classical in
/-- How many objects a click leaves behind. -/
noncomputable def leaked (cl : Str → Nat) (p : Page) : Button → Nat
  | .dfaEq => if Legal cl .dfa (p.value .dfaEq1) ↔ Legal cl .dfa (p.value .dfaEq2) then 0 else 1
  | .nfaEq => if Legal cl .nfa (p.value .nfaEq1) ↔ Legal cl .nfa (p.value .nfaEq2) then 0 else 1
  | .nfaToDfa => 0
  | .minimize => if Legal cl .dfa (p.value .minimize) then 1 else 0
  | .regexToNfa => if Legal cl .regex (p.value .regex) then 1 else 0
  | .visualize => if Legal cl .nfa (p.value .visualize) then 1 else 0

/-- The parts of the page that a click on the button may change. -/
structure OnlyChanges (b : Button) (p q : Page) : Prop where
  labels : ∀ b', b' ≠ b → q.label b' = p.label b'
  values : ∀ a, (b = .nfaToDfa → a ≠ .nfaToDfaOut) → (b = .minimize → a ≠ .minimizeOut) → (b = .regexToNfa → a ≠ .regexOut) →
    q.value a = p.value a
  dfaErrors : b ≠ .dfaEq → q.dfaErrors = p.dfaErrors
  nfaErrors : b ≠ .nfaEq → q.nfaErrors = p.nfaErrors
  canvas : b ≠ .visualize → q.canvas = p.canvas

/-- The area that the function of a button reads. -/
def Reads : Button → Area → Prop
  | .dfaEq, a => a = .dfaEq1 ∨ a = .dfaEq2
  | .nfaEq, a => a = .nfaEq1 ∨ a = .nfaEq2
  | .nfaToDfa, a => a = .nfaToDfa
  | .minimize, a => a = .minimize
  | .regexToNfa, a => a = .regex
  | .visualize, a => a = .visualize

/-- On two pages, the button shows the same answer: its text, its error report, and, if the text it converts is legal, its output. -/
structure SameAnswer (cl : Str → Nat) (b : Button) (p q : Page) : Prop where
  label : b ≠ .nfaToDfa → p.label b = q.label b
  dfaErrors : b = .dfaEq → p.dfaErrors = q.dfaErrors
  nfaErrors : b = .nfaEq → p.nfaErrors = q.nfaErrors
  nfaToDfa : b = .nfaToDfa → p.value .nfaToDfaOut = q.value .nfaToDfaOut
  minimize : b = .minimize → Legal cl .dfa (p.value .minimize) → p.value .minimizeOut = q.value .minimizeOut
  regexToNfa : b = .regexToNfa → Legal cl .regex (p.value .regex) → p.value .regexOut = q.value .regexOut

end Site
end Dandy
