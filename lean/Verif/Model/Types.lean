/-!
# Data types of the model

Strings are lists of characters (`Rc<str>`, `String`, `&str` in the code).
-/

namespace Dandy

/-- Strings. Simplification: a Rust string is modelled by its list of `char`s (code points). For
instance the names `Rc<str>` at dandy/src/dfa/mod.rs:500. -/
abbrev Str := List Char

/-- dandy/src/dfa/mod.rs:243-249 `DfaState`. -/
structure DfaState where
  name : Str
  initial : Bool
  accepting : Bool
  transitions : List Nat
deriving DecidableEq, Repr, Inhabited

/-- dandy/src/dfa/mod.rs:234-239 `Dfa`. `alphabet` is `Rc<[Rc<str>]>`, `states` is `Vec<DfaState>`. -/
structure Dfa where
  alphabet : List Str
  states : List DfaState
  initialState : Nat
deriving DecidableEq, Repr, Inhabited

/-- dandy/src/nfa/mod.rs:270-277 `NfaState`. -/
structure NfaState where
  name : Str
  initial : Bool
  accepting : Bool
  epsilonTransitions : List Nat
  transitions : List (List Nat)
deriving DecidableEq, Repr, Inhabited

/-- dandy/src/nfa/mod.rs:261-266 `Nfa`. -/
structure Nfa where
  alphabet : List Str
  states : List NfaState
  initialState : Nat
deriving DecidableEq, Repr, Inhabited

end Dandy
