import Verif.Spec.Compose
/-! # Equations for expressions (for C130) -/

namespace Dandy
namespace Shape

/-- One can see that the empty word is not meant, if it is not meant by the parts with `E`. -/
def NoEmpty {α : Type} (E : α → Prop) : Shape α → Prop
  | text a => E a
  | alt x y => x.NoEmpty E ∧ y.NoEmpty E
  | seq x y => x.NoEmpty E ∨ y.NoEmpty E
  | star _ => False
  | plus x => x.NoEmpty E

/-- The unknown parts `U` only occur before or after something without the empty word. -/
def Guarded {α : Type} (U E : α → Prop) : Shape α → Prop
  | text a => ¬ U a
  | alt x y => x.Guarded U E ∧ y.Guarded U E
  | seq x y => x.Guarded U E ∧ (y.Guarded U E ∨ x.NoEmpty E) ∨ y.Guarded U E ∧ y.NoEmpty E
  | star x => x.Guarded U E
  | plus x => x.Guarded U E

end Shape
end Dandy
