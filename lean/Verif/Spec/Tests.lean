import Verif.Model.Tests
import Verif.Spec.Automata
import Verif.Spec.Graphemes
import Verif.Spec.RegexGrammar
import Verif.Spec.TableText
/-!
# What the generators of dandy/src/tests.rs can produce

Sizes are not bounded here (the code uses less than 50 states and elements, 100 test strings and so on).
-/

namespace Dandy
namespace PropTests

/-- The iteration order of a hash set is any permutation of its elements. -/
structure Orders.Ok (o : Orders) : Prop where
  pairs : ∀ k l, (o.pairs k l).Perm l
  opairs : ∀ k l, (o.opairs k l).Perm l
  idx : ∀ k l, (o.idx k l).Perm l
  row : ∀ k i c l, (o.row k i c l).Perm l

/-- dandy/src/tests.rs:478-484, 494-514 `state_names`, `alphabet_elems`: a set of names which are not empty, contain no white space
and none of `#`, `{`, `}`, and are no reserved words, in any order. -/
def NameSet (count : Nat) (names : List Str) : Prop :=
  names.length = count ∧ names.Nodup ∧ ∀ n ∈ names, TableText.Name n

/-- dandy/src/tests.rs:366-431: the DFAs generated over an alphabet. -/
inductive DrawnDfa (alphabet : List Str) : Dfa → Prop
  | mk (count : Nat) (names : List Str) (initial : Nat) (accepting : List Bool) (rows : List (List Nat)) :
      NameSet count names → initial < count → accepting.length = count → rows.length = count →
      (∀ row ∈ rows, row.length = alphabet.length ∧ ∀ t ∈ row, t < count) → DrawnDfa alphabet (dfaOf names alphabet initial accepting rows)

/-- dandy/src/tests.rs:441-453, 467-472: the indices of some flags for `count` states, in any order. -/
def Targets (count : Nat) (ts : List Nat) : Prop := ∃ flags : List Bool, flags.length = count ∧ ts.Perm (setFlags flags)

/-- dandy/src/tests.rs:291-364, 455-476: the NFAs generated over an alphabet. -/
inductive DrawnNfa (alphabet : List Str) : Nfa → Prop
  | mk (count : Nat) (names : List Str) (initial : Nat) (accepting : List Bool) (rows : List (List (List Nat))) (eps : List (List Nat)) :
      NameSet count names → initial < count → accepting.length = count → rows.length = count → eps.length = count →
      (∀ row ∈ rows, row.length = alphabet.length ∧ ∀ ts ∈ row, Targets count ts) → (∀ ts ∈ eps, Targets count ts) →
      DrawnNfa alphabet (nfaOf names alphabet initial accepting rows eps)

/-- dandy/src/tests.rs:401-411 `dfa`. -/
def GenDfa (d : Dfa) : Prop := ∃ count alphabet, 1 ≤ count ∧ NameSet count alphabet ∧ DrawnDfa alphabet d

/-- dandy/src/tests.rs:330-341 `nfa`. -/
def GenNfa (n : Nfa) : Prop := ∃ count alphabet, 1 ≤ count ∧ NameSet count alphabet ∧ DrawnNfa alphabet n

/-- dandy/src/tests.rs:366-375, 389-391 `fixed_alphabet_dfa`: the alphabet is shuffled. -/
def FixedDfa (lo hi : Char) (d : Dfa) : Prop := ∃ alphabet : List Str, alphabet.Perm (charRange lo hi) ∧ DrawnDfa alphabet d

/-- dandy/src/tests.rs:291-301, 318-320 `fixed_alphabet_nfa`. -/
def FixedNfa (lo hi : Char) (n : Nfa) : Prop := ∃ alphabet : List Str, alphabet.Perm (charRange lo hi) ∧ DrawnNfa alphabet n

/-- A string of the form `[lo-hi]+` (dandy/src/tests.rs:127, 148, 175, 265). -/
def LetterString (lo hi : Char) (t : Str) : Prop := t ≠ [] ∧ ∀ c ∈ t, lo ≤ c ∧ c ≤ hi

/-- dandy/src/tests.rs:516-526 `random_regex`; `base` are the characters of the leaves. -/
inductive RandomRegex (base : Char → Prop) : Str → Prop
  | leaf (c : Char) : base c → RandomRegex base [c]
  | group (ts : List Str) : ts ≠ [] → (∀ t ∈ ts, RandomRegex base t) → RandomRegex base ('(' :: ts.flatten ++ [')'])
  | bars (ts : List Str) : ts ≠ [] → (∀ t ∈ ts, RandomRegex base t) → RandomRegex base (joinBar ts)
  | star (t : Str) : RandomRegex base t → RandomRegex base ('(' :: t ++ [')', '*'])
  | plus (t : Str) : RandomRegex base t → RandomRegex base ('(' :: t ++ [')', '+'])

/-- `[a-z]` (dandy/src/tests.rs:264). -/
def Letter (c : Char) : Prop := 'a' ≤ c ∧ c ≤ 'z'

/-- `[a-zε∅]` (dandy/src/tests.rs:283). -/
def LetterOrSymbol (c : Char) : Prop := Letter c ∨ c = 'ε' ∨ c = '∅'

/-- Assumption about the crate unicode-segmentation: each letter of a string of letters is a cluster of its own. -/
def BreaksLetters (seg : Str → List Str) : Prop := ∀ t : Str, (∀ c ∈ t, Letter c) → seg t = t.map (fun c => [c])

/-- Assumption about the crate regex: the expressions generated by `random_regex("[a-z]")` compile, and `^(r)$` matches exactly the
strings which the documented grammar of dandy gives to `r`. -/
def LibAgrees (cl : Str → Nat) (lib : Str → Option (Str → Bool)) : Prop :=
  ∀ text, RandomRegex Letter text → ∃ m, lib (['^', '('] ++ text ++ [')', '$']) = some m ∧
    ∀ L gs, ExprL cl text [] L gs → ∀ t : Str, (∀ c ∈ t, Letter c) → (m t = true ↔ t.map (fun c => [c]) ∈ L)

end PropTests
end Dandy
