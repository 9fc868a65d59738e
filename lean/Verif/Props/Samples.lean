import Verif.Model.Nfa
import Verif.Model.Chars
import Verif.Proofs.NfaCore
/-! # Concrete automata used as non-vacuity examples next to the property theorems -/

namespace Dandy.Samples
open Dandy

/-- A one-character string. -/
def s (c : Char) : Str := [c]

/-- README-like DFA: words over {a,b} whose number of `a`s is odd, with an extra unreachable state. -/
def oddA : Dfa :=
  { alphabet := [s 'a', s 'b'],
    states := [⟨s 'e', true, false, [1, 0]⟩, ⟨s 'o', false, true, [0, 1]⟩, ⟨s 'u', false, true, [0, 2]⟩],
    initialState := 0 }

/-- Words over {b,a} (other order of the alphabet!) that end in `b`; the initial state is not the first one. -/
def endsB : Dfa :=
  { alphabet := [s 'b', s 'a'],
    states := [⟨s 'y', false, true, [0, 1]⟩, ⟨s 'n', true, false, [0, 1]⟩],
    initialState := 1 }

/-- A DFA over another alphabet. -/
def overC : Dfa :=
  { alphabet := [s 'c'], states := [⟨s 'x', true, true, [0]⟩], initialState := 0 }

/-- A DFA with redundant states (accepts exactly the words `a` and `b`). -/
def redundant : Dfa :=
  { alphabet := [s 'a', s 'b'],
    states := [⟨s '0', true, false, [1, 2]⟩, ⟨s '1', false, true, [3, 4]⟩, ⟨s '2', false, true, [4, 3]⟩,
      ⟨s '3', false, false, [3, 4]⟩, ⟨s '4', false, false, [4, 3]⟩, ⟨s '5', false, true, [0, 5]⟩],
    initialState := 0 }

theorem oddA_wf : oddA.WF := Dfa.wf_of_wfB (by decide)
theorem endsB_wf : endsB.WF := Dfa.wf_of_wfB (by decide)
theorem overC_wf : overC.WF := Dfa.wf_of_wfB (by decide)
theorem redundant_wf : redundant.WF := Dfa.wf_of_wfB (by decide)

/-- An NFA over {a,b} with an epsilon cycle between 1 and 4, accepting the words not ending in `a`: only `b`s (state 2),
or `ab` followed by `b`s (states 1 and 3); state 5 is unreachable, state 4 has no normal transitions. -/
def epsNfa : Nfa :=
  { alphabet := [s 'a', s 'b'],
    states := [⟨s '0', true, false, [1, 2], [[], []]⟩, ⟨s '1', false, false, [4], [[1, 3], [1]]⟩,
      ⟨s '2', false, true, [], [[], [2]]⟩, ⟨s '3', false, false, [], [[], [2, 4]]⟩, ⟨s '4', false, false, [1], [[], []]⟩,
      ⟨s '5', false, true, [3], [[5], [0]]⟩],
    initialState := 0 }

/-- An NFA over the alphabet [b,a] (other order), no epsilon moves, state names clashing with `epsNfa`:
words over {a,b} of even length whose first element is `a`. The initial state is the last one. -/
def evenA : Nfa :=
  { alphabet := [s 'b', s 'a'],
    states := [⟨s '1', false, false, [], [[1], [1]]⟩, ⟨s '2', false, true, [], [[0], [0]]⟩,
      ⟨s '0', true, false, [], [[], [0]]⟩],
    initialState := 2 }

/-- An NFA over another alphabet. -/
def nfaC : Nfa := { alphabet := [s 'c'], states := [⟨s '0', true, true, [], [[0]]⟩], initialState := 0 }

theorem epsNfa_wf : epsNfa.WF := Nfa.wf_of_wfB (by decide)
theorem evenA_wf : evenA.WF := Nfa.wf_of_wfB (by decide)
theorem nfaC_wf : nfaC.WF := Nfa.wf_of_wfB (by decide)

end Dandy.Samples
