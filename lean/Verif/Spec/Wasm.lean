import Verif.Model.Wasm
import Verif.Spec.Cli
/-!
# Specification of the handles of the wasm bindings

Everything is said in terms of histories: the calls made and the values they returned, newest first.
-/

namespace Dandy
namespace Wasm
open Cli (AutomataType Automata IsTextOf)

/-- The handle a call has created, with the kind of object. -/
def created : Call × Result → Option (AutomataType × Nat)
  | (.loadDfa _, .loaded (.ok k)) => some (.dfa, k)
  | (.loadNfa _, .loaded (.ok k)) => some (.nfa, k)
  | (.loadRegex _, .loaded (.ok k)) => some (.regex, k)
  | (.regexToNfa _, .key (some k)) => some (.nfa, k)
  | (.dfaToNfa _, .key (some k)) => some (.nfa, k)
  | (.nfaToDfa _, .key (some k)) => some (.dfa, k)
  | _ => none

/-- The handle a call has deleted or consumed. -/
def removed : Call × Result → Option (AutomataType × Nat)
  | (.deleteDfa k, .flag true) => some (.dfa, k)
  | (.deleteNfa k, .flag true) => some (.nfa, k)
  | (.deleteRegex k, .flag true) => some (.regex, k)
  | (.regexToNfa k, .key (some _)) => some (.regex, k)
  | _ => none

/-- The handles a call uses. -/
def uses : Call → List (AutomataType × Nat)
  | .regexToNfa k => [(.regex, k)]
  | .minimizeDfa k _ => [(.dfa, k)]
  | .drawDfa k _ => [(.dfa, k)]
  | .drawNfa k _ => [(.nfa, k)]
  | .checkDfaEq k l => [(.dfa, k), (.dfa, l)]
  | .checkNfaEq k l => [(.nfa, k), (.nfa, l)]
  | .dfaToNfa k => [(.dfa, k)]
  | .nfaToDfa k => [(.nfa, k)]
  | .dfaToTable k => [(.dfa, k)]
  | .nfaToTable k => [(.nfa, k)]
  | .deleteRegex k => [(.regex, k)]
  | .deleteDfa k => [(.dfa, k)]
  | .deleteNfa k => [(.nfa, k)]
  | .loadRegex _ => []
  | .loadDfa _ => []
  | .loadNfa _ => []

/-- What a call needs besides its handles: a canvas, or a legal text. -/
def Call.Needs (env : Env) : Call → Prop
  | .drawDfa _ id => env.canvas id = true
  | .drawNfa _ id => env.canvas id = true
  | .loadRegex t => ∃ a : Automata, a.getType = .regex ∧ IsTextOf env.cl t a
  | .loadDfa t => ∃ a : Automata, a.getType = .dfa ∧ IsTextOf env.cl t a
  | .loadNfa t => ∃ a : Automata, a.getType = .nfa ∧ IsTextOf env.cl t a
  | _ => True

/-- The value returned says that the call was successful. -/
def Result.Success : Result → Prop
  | .loaded r => ∃ k, r = .ok k
  | .key k => k ≠ none
  | .flag b => b = true
  | .verdict b => b ≠ none
  | .table t => t ≠ none
  | .drewDfa d => d ≠ none
  | .drewNfa n => n ≠ none

/-- The handle has been created and neither deleted nor consumed since. -/
inductive Live : List (Call × Result) → AutomataType → Nat → Prop
  | new {h : List (Call × Result)} {e : Call × Result} {ty : AutomataType} {k : Nat} : created e = some (ty, k) → Live (e :: h) ty k
  | keep {h : List (Call × Result)} {e : Call × Result} {ty : AutomataType} {k : Nat} :
      Live h ty k → removed e ≠ some (ty, k) → Live (e :: h) ty k

/-- `Means cl h ty k al L`: after the calls `h`, the handle `k` stands for an object with the alphabet `al` and the language `L`. Both
come from the text loaded, are passed on by conversions, and stay the same until the handle is deleted, whatever is called. -/
inductive Means (cl : Str → Nat) : List (Call × Result) → AutomataType → Nat → List Str → (Word → Prop) → Prop
  | loadDfa {h : List (Call × Result)} {t : Str} {k : Nat} {d : Dfa} : IsTextOf cl t (.dfa d) →
      Means cl ((.loadDfa t, .loaded (.ok k)) :: h) .dfa k d.alphabet d.Lang
  | loadNfa {h : List (Call × Result)} {t : Str} {k : Nat} {n : Nfa} : IsTextOf cl t (.nfa n) →
      Means cl ((.loadNfa t, .loaded (.ok k)) :: h) .nfa k n.alphabet n.Lang
  | loadRegex {h : List (Call × Result)} {t : Str} {k : Nat} {tree : RegexTree} {al : List Str} : IsTextOf cl t (.regex tree) →
      (Automata.regex tree).HasAlphabet al → Means cl ((.loadRegex t, .loaded (.ok k)) :: h) .regex k al (Matches tree)
  | regexToNfa {h : List (Call × Result)} {k l : Nat} {al : List Str} {L : Word → Prop} : Means cl h .regex k al L →
      Means cl ((.regexToNfa k, .key (some l)) :: h) .nfa l al L
  | dfaToNfa {h : List (Call × Result)} {k l : Nat} {al : List Str} {L : Word → Prop} : Means cl h .dfa k al L →
      Means cl ((.dfaToNfa k, .key (some l)) :: h) .nfa l al L
  | nfaToDfa {h : List (Call × Result)} {k l : Nat} {al : List Str} {L : Word → Prop} : Means cl h .nfa k al L →
      Means cl ((.nfaToDfa k, .key (some l)) :: h) .dfa l al L
  | keep {h : List (Call × Result)} {e : Call × Result} {ty : AutomataType} {k : Nat} {al : List Str} {L : Word → Prop} :
      Means cl h ty k al L → removed e ≠ some (ty, k) → Means cl (e :: h) ty k al L

/-- The iteration orders in a call are orders of the sets. -/
def Call.Valid : Call → Prop
  | .minimizeDfa _ o => o.Valid
  | _ => True

/-- The reason of a load error, for the type of what is loaded. -/
def reason : Cli.AutomataType → LoadError → Cli.LoadError
  | .dfa, .parse e => .dfaParse e
  | .dfa, .validate e => .dfaCompile e
  | .nfa, .parse e => .nfaParse e
  | .nfa, .validate e => .nfaCompile e
  | .regex, .parse e => .regexParse e
  | .regex, .validate _ => .file [] []

end Wasm
end Dandy
