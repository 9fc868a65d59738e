import Verif.Spec.Automata
import Mathlib.Data.Set.Card
/-! # What can still follow a word (for C131) -/

namespace Dandy

/-- The words with which a word can be continued to one that is accepted. -/
def restOf (accepts : Word → Bool) (w : Word) : Set Word := {v | accepts (w ++ v) = true}

/-- Pairs of words that fit together, but not crosswise. -/
def Fooling (accepts : Word → Bool) (ps : List (Word × Word)) : Prop :=
  (∀ p ∈ ps, accepts (p.1 ++ p.2) = true) ∧ ps.Pairwise (fun p q => ¬ (accepts (p.1 ++ q.2) = true ∧ accepts (q.1 ++ p.2) = true))

end Dandy
