import Verif.Model.Validate
import Verif.Model.ParseCost
/-!
# The work of turning a parsed table into an automaton (dandy/src/dfa/parse.rs, dandy/src/nfa/parse.rs)

Counted in elementary steps: one for every item that a loop handles, and for a name that is hashed, compared in the hash table or copied (`Rc::from`) one
more than it has characters. A look-up in a hash table hashes the name and compares it with at most a bounded number of others (simplification, true on the
average for the randomized hashing of the standard library). A loop that ends early is not counted any further.
-/

namespace Dandy
namespace ValidateC

/-- Hashing, looking up or copying a text (dandy/src/dfa/parse.rs:33,40,74,90): one step and one for every character. -/
def text (s : Str) : Nat := 1 + s.length

/-- The same for all texts of a list (dandy/src/dfa/parse.rs:38-42,100). -/
def texts (l : List Str) : Nat := (l.map text).sum

/-- Work of the search for a duplicate (dandy/src/dfa/parse.rs:31-36,46-50): up to the first one. -/
def firstDup : List Str → List Str → Nat
  | _, [] => 1
  | seen, e :: es => 1 + text e + if seen.contains e then 0 else firstDup (e :: seen) es

/-- Work of looking up the targets (dandy/src/dfa/parse.rs:73-80, dandy/src/nfa/parse.rs:88-105): up to the first one that does not exist. -/
def lookupAll (names : List Str) : List Str → Nat
  | [] => 1
  | t :: ts => 1 + text t + if (Validate.nameGet names t).isSome then lookupAll names ts else 0

/-- Work of the loop over the states (dandy/src/dfa/parse.rs:56-96, dandy/src/nfa/parse.rs:68-125): up to the first row with an error. -/
def stateLoop {σ α : Type} (row : σ → Except ParseError α) (cost : σ → Nat) (isInit : σ → Bool) : List σ → Option Nat → Nat → Nat
  | [], _, _ => 1
  | s :: ss, init, idx =>
    2 + cost s +
      match row s with
      | .error _ => 0
      | .ok _ => if isInit s && init.isSome then 0 else stateLoop row cost isInit ss (if isInit s then some idx else init) (idx + 1)

/-- Work for a row of a DFA (dandy/src/dfa/parse.rs:57-80,89-95). -/
def dfaRow (p : ParsedDfa) (s : ParsedDfaState) : Nat :=
  if s.transitions.length != p.head.length then 1
  else 1 + lookupAll (p.states.map (·.name)) s.transitions + text s.name

/-- Work of `Dfa::try_from` (dandy/src/dfa/parse.rs:27-108). -/
def dfa (p : ParsedDfa) : Nat :=
  1 + firstDup [] p.head +
    match Validate.firstDup [] p.head with
    | some _ => 0
    | none =>
      texts (p.states.map (·.name)) +
      if Validate.nameCount (p.states.map (·.name)) != p.states.length then firstDup [] (p.states.map (·.name))
      else
        stateLoop (Validate.dfaRow p) (dfaRow p) (·.initial) p.states none 0 +
        match Validate.stateLoop (Validate.dfaRow p) (·.initial) p.states 0 none with
        | .ok (_, some _) => texts p.head
        | _ => 0

/-- Work for an entry of the first line of an NFA (dandy/src/nfa/parse.rs:36-46). -/
def entry : NfaAlphabetEntry → Nat
  | .element c => text c
  | .eps => 1

/-- Work of the check of the first line (dandy/src/nfa/parse.rs:33-48): up to the first duplicate. -/
def nfaHead : List NfaAlphabetEntry → List Str → Bool → Nat
  | [], _, _ => 1
  | .element c :: es, seen, eps => 1 + entry (.element c) + if seen.contains c then 0 else nfaHead es (c :: seen) eps
  | .eps :: es, seen, eps => 1 + entry .eps + if eps then 0 else nfaHead es seen true

/-- Work for the entries of a row (dandy/src/nfa/parse.rs:85-108): up to the first target that does not exist. -/
def nfaEntries (names : List Str) (name : Str) : List (List Str) → Nat
  | [] => 1
  | t :: ts =>
    1 + lookupAll names t +
      match Validate.lookupAll names name t with
      | .error _ => 0
      | .ok _ => nfaEntries names name ts

/-- Work for a row of an NFA (dandy/src/nfa/parse.rs:69-108,118-124). -/
def nfaRow (p : ParsedNfa) (s : ParsedNfaState) : Nat :=
  if s.transitions.length != p.head.length then 1
  else 1 + nfaEntries (p.states.map (·.name)) s.name s.transitions + text s.name

/-- Work of `Nfa::try_from` (dandy/src/nfa/parse.rs:27-143). -/
def nfa (p : ParsedNfa) : Nat :=
  1 + nfaHead p.head [] false +
    match Validate.nfaHead p.head 0 [] none with
    | .error _ => 0
    | .ok epsIdx =>
      texts (p.states.map (·.name)) +
      if Validate.nameCount (p.states.map (·.name)) != p.states.length then firstDup [] (p.states.map (·.name))
      else
        stateLoop (Validate.nfaRow p epsIdx) (nfaRow p) (·.initial) p.states none 0 +
        match Validate.stateLoop (Validate.nfaRow p epsIdx) (·.initial) p.states 0 none with
        | .ok (_, some _) => (p.head.map (fun e => 1 + entry e)).sum
        | _ => 0

end ValidateC

/-- Work of reading the table of a DFA: the parser, and `try_from` if it succeeds (dandy/src/parser/mod.rs:102-106, dandy/src/dfa/parse.rs:27). -/
def readDfaCost (t : Str) : Nat :=
  FaC.dfaCost t + match Fa.dfa t with
    | none => 0
    | some p => ValidateC.dfa p

/-- Work of reading the table of an NFA: the parser, and `try_from` if it succeeds (dandy/src/parser/mod.rs:111-115, dandy/src/nfa/parse.rs:27). -/
def readNfaCost (t : Str) : Nat :=
  FaC.nfaCost t + match Fa.nfa t with
    | none => 0
    | some p => ValidateC.nfa p

end Dandy
