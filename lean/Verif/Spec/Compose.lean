import Verif.Spec.RegexGrammar
/-! # Putting expressions together as texts (for C115) -/

namespace Dandy

/-- How an expression is put together from others. -/
inductive Shape (α : Type) where
  | text (a : α)
  | alt (x y : Shape α)
  | seq (x y : Shape α)
  | star (x : Shape α)
  | plus (x : Shape α)

namespace Shape

/-- The same with other parts. -/
def map {α β : Type} (f : α → β) : Shape α → Shape β
  | text a => text (f a)
  | alt x y => alt (x.map f) (y.map f)
  | seq x y => seq (x.map f) (y.map f)
  | star x => star (x.map f)
  | plus x => plus (x.map f)

/-- The parts, in the order in which they are written. -/
def parts {α : Type} : Shape α → List α
  | text a => [a]
  | alt x y => x.parts ++ y.parts
  | seq x y => x.parts ++ y.parts
  | star x => x.parts
  | plus x => x.parts

/-- What one writes: everything in parentheses. -/
def write : Shape Str → Str
  | text a => ['('] ++ a ++ [')']
  | alt x y => ['('] ++ x.write ++ ['|'] ++ y.write ++ [')']
  | seq x y => ['('] ++ x.write ++ y.write ++ [')']
  | star x => ['('] ++ x.write ++ ['*', ')']
  | plus x => ['('] ++ x.write ++ ['+', ')']

/-- What one means by it, if the parts mean `ρ`. -/
def lang {α : Type} (ρ : α → Language Str) : Shape α → Language Str
  | text a => ρ a
  | alt x y => x.lang ρ + y.lang ρ
  | seq x y => x.lang ρ * y.lang ρ
  | star x => KStar.kstar (x.lang ρ)
  | plus x => x.lang ρ * KStar.kstar (x.lang ρ)

end Shape

/-- The text can be followed by the character `c` (and whatever comes then) without a change of its clusters. -/
def Ends (cl : Str → Nat) (c : Char) (t : Str) : Prop := ∀ s, s <:+ t → s ≠ [] → ∀ r, cl (s ++ c :: r) = cl s

end Dandy
