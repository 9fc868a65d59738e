import Verif.Spec.Cli
/-! # What is kept of an enumeration -/

namespace Dandy

/-- The items of an enumeration with the words that fail a test left out; the `None`s at the end stay. -/
def keepWords (P : Word → Bool) : List (Option Word) → List (Option Word)
  | [] => []
  | none :: rs => none :: keepWords P rs
  | some w :: rs => if P w then some w :: keepWords P rs else keepWords P rs

end Dandy
