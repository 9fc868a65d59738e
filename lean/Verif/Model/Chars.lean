import Verif.Model.Types
/-! # Notation for texts -/

namespace Dandy

/-- A list of characters written as a string (Rust string literals are modelled as lists of characters). -/
macro:max "c!" s:str : term => do
  let cs := s.getString.toList.map Lean.Syntax.mkCharLit
  `([$(cs.toArray),*])

end Dandy
