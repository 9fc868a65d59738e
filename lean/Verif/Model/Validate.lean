import Verif.Model.Types
/-!
# Model of dandy/src/dfa/parse.rs and dandy/src/nfa/parse.rs: from parsed tables to automata
-/

namespace Dandy

/-- dandy/src/parser/mod.rs:91-97 `ParsedDfaState`. -/
structure ParsedDfaState where
  name : Str
  initial : Bool
  accepting : Bool
  transitions : List Str
deriving DecidableEq, Repr

/-- dandy/src/parser/mod.rs:85-89 `ParsedDfa`. -/
structure ParsedDfa where
  head : List Str
  states : List ParsedDfaState
deriving DecidableEq, Repr

/-- dandy/src/parser/mod.rs:71-75 `NfaAlphabetEntry`. -/
inductive NfaAlphabetEntry where
  | element (e : Str)
  | eps
deriving DecidableEq, Repr

/-- dandy/src/parser/mod.rs:77-83 `ParsedNfaState`. -/
structure ParsedNfaState where
  name : Str
  initial : Bool
  accepting : Bool
  transitions : List (List Str)
deriving DecidableEq, Repr

/-- dandy/src/parser/mod.rs:65-69 `ParsedNfa`. -/
structure ParsedNfa where
  head : List NfaAlphabetEntry
  states : List ParsedNfaState
deriving DecidableEq, Repr

/-- dandy/src/dfa/parse.rs:8-22 `DfaParseError`, dandy/src/nfa/parse.rs:8-22 `NfaParseError` (same constructors). -/
inductive ParseError where
  | wrongNumberOfTransitions (name : Str) (has expected : Nat)
  | transitionDoesNotExist (name target : Str)
  | missingInitialState
  | multipleInitialStates
  | duplicateAlphabetSymbol (e : Str)
  | duplicateStateDefinition (name : Str)
deriving DecidableEq, Repr

namespace Validate

/-- The first element already seen (`try_for_each`/`find_map` with a `HashSet`, dandy/src/dfa/parse.rs:32-35,46-49). -/
def firstDup : List Str → List Str → Option Str
  | _, [] => none
  | seen, e :: es => if seen.contains e then some e else firstDup (e :: seen) es

/-- `state_name_map.get` (dandy/src/dfa/parse.rs:38-42,75): the `HashMap` collected from `(name, index)`; a later entry replaces an
earlier one with the same name. -/
def nameGet (names : List Str) (x : Str) : Option Nat :=
  (names.zipIdx.foldl (fun acc p => if p.1 == x then some p.2 else acc) none)

/-- `state_name_map.len()` (dandy/src/dfa/parse.rs:44): the number of different names. -/
def nameCount (names : List Str) : Nat :=
  (names.foldl (fun acc x => if acc.contains x then acc else x :: acc) ([] : List Str)).length

/-- Looking up the targets of one entry (dandy/src/dfa/parse.rs:73-80, dandy/src/nfa/parse.rs:88-105). -/
def lookupAll (names : List Str) (name : Str) : List Str → Except ParseError (List Nat)
  | [] => .ok []
  | t :: ts =>
    match nameGet names t with
    | some i =>
      match lookupAll names name ts with
      | .ok is => .ok (i :: is)
      | .error e => .error e
    | none => .error (.transitionDoesNotExist name t)

/-- The loop over the states (dandy/src/dfa/parse.rs:57-96, dandy/src/nfa/parse.rs:69-125): `row` is the conversion of the
transitions of one state, `init` is `initial_state`. -/
def stateLoop {σ α : Type} (row : σ → Except ParseError α) (isInit : σ → Bool) :
    List σ → Nat → Option Nat → Except ParseError (List α × Option Nat)
  | [], _, init => .ok ([], init)
  | s :: ss, idx, init =>
    match row s with
    | .error e => .error e
    | .ok a =>
      if isInit s && init.isSome then .error .multipleInitialStates
      else
        match stateLoop row isInit ss (idx + 1) (if isInit s then some idx else init) with
        | .error e => .error e
        | .ok (as, init') => .ok (a :: as, init')

/-- The conversion of one row of a DFA (dandy/src/dfa/parse.rs:58-80,90-95). -/
def dfaRow (p : ParsedDfa) (s : ParsedDfaState) : Except ParseError DfaState :=
  if s.transitions.length != p.head.length then .error (.wrongNumberOfTransitions s.name s.transitions.length p.head.length)
  else
    match lookupAll (p.states.map (·.name)) s.name s.transitions with
    | .error e => .error e
    | .ok tr => .ok ⟨s.name, s.initial, s.accepting, tr⟩

/-- dandy/src/dfa/parse.rs:27-108 `Dfa::try_from`. -/
def dfa (p : ParsedDfa) : Except ParseError Dfa :=
  match firstDup [] p.head with
  | some d => .error (.duplicateAlphabetSymbol d)
  | none =>
    if nameCount (p.states.map (·.name)) != p.states.length then
      .error (.duplicateStateDefinition ((firstDup [] (p.states.map (·.name))).getD ['<', 'u', 'n', 'k', 'n', 'o', 'w', 'n', '>']))
    else
      match stateLoop (dfaRow p) (·.initial) p.states 0 none with
      | .error e => .error e
      | .ok (states, some i) => .ok ⟨p.head, states, i⟩
      | .ok (_, none) => .error .missingInitialState

/-- The check of the header (dandy/src/nfa/parse.rs:31-48): `eps_idx`, or the duplicate symbol. -/
def nfaHead : List NfaAlphabetEntry → Nat → List Str → Option Nat → Except ParseError (Option Nat)
  | [], _, _, eps => .ok eps
  | .element c :: es, idx, seen, eps =>
    if seen.contains c then .error (.duplicateAlphabetSymbol c) else nfaHead es (idx + 1) (c :: seen) eps
  | .eps :: es, idx, seen, eps =>
    if eps.isSome then .error (.duplicateAlphabetSymbol ['ε']) else nfaHead es (idx + 1) seen (some idx)

/-- The loop over the entries of a row (dandy/src/nfa/parse.rs:85-108): the epsilon transitions and the other transitions. -/
def nfaEntries (names : List Str) (name : Str) (epsIdx : Option Nat) :
    List (List Str) → Nat → Option (List Nat) → Except ParseError (Option (List Nat) × List (List Nat))
  | [], _, eps => .ok (eps, [])
  | t :: ts, idx, eps =>
    match lookupAll names name t with
    | .error e => .error e
    | .ok is =>
      if some idx == epsIdx then nfaEntries names name epsIdx ts (idx + 1) (some is)
      else
        match nfaEntries names name epsIdx ts (idx + 1) eps with
        | .error e => .error e
        | .ok (eps', rest) => .ok (eps', is :: rest)

/-- The conversion of one row of an NFA (dandy/src/nfa/parse.rs:70-108,118-124). -/
def nfaRow (p : ParsedNfa) (epsIdx : Option Nat) (s : ParsedNfaState) : Except ParseError NfaState :=
  if s.transitions.length != p.head.length then .error (.wrongNumberOfTransitions s.name s.transitions.length p.head.length)
  else
    match nfaEntries (p.states.map (·.name)) s.name epsIdx s.transitions 0 none with
    | .error e => .error e
    | .ok (eps, tr) => .ok ⟨s.name, s.initial, s.accepting, eps.getD [], tr⟩

/-- The closure building the alphabet (dandy/src/nfa/parse.rs:131-134). -/
def entryElement : NfaAlphabetEntry → Option Str
  | .eps => none
  | .element s => some s

/-- dandy/src/nfa/parse.rs:27-143 `Nfa::try_from`. -/
def nfa (p : ParsedNfa) : Except ParseError Nfa :=
  match nfaHead p.head 0 [] none with
  | .error e => .error e
  | .ok epsIdx =>
    if nameCount (p.states.map (·.name)) != p.states.length then
      .error (.duplicateStateDefinition ((firstDup [] (p.states.map (·.name))).getD ['<', 'u', 'n', 'k', 'n', 'o', 'w', 'n', '>']))
    else
      match stateLoop (nfaRow p epsIdx) (·.initial) p.states 0 none with
      | .error e => .error e
      | .ok (states, some i) =>
        .ok ⟨p.head.filterMap entryElement, states, i⟩
      | .ok (_, none) => .error .missingInitialState

end Validate
end Dandy
