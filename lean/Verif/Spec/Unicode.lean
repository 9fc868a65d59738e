import Verif.Model.Unicode
/-!
# The rules of Unicode Standard Annex 29 for extended grapheme clusters

Stated as in the standard, for a text `u d v` and the position between `u` (not empty) and the character `d`.
-/

namespace Dandy
namespace Unicode

/-- A control character, carriage return or line feed. -/
def Hard (x : Gcb) : Prop := x = .control ∨ x = .cr ∨ x = .lf

/-- One of the rules after GB5 without a boundary: GB6, GB7, GB8, GB9, GB9a, GB9b, GB9c, GB11, GB12 and GB13. -/
inductive Ties (P : Table) : Str → Char → Prop
  | gb6 (u : Str) (c d : Char) : P.gcb c = .l → P.gcb d ∈ [Gcb.l, .v, .lv, .lvt] → Ties P (u ++ [c]) d
  | gb7 (u : Str) (c d : Char) : P.gcb c ∈ [Gcb.lv, .v] → P.gcb d ∈ [Gcb.v, .t] → Ties P (u ++ [c]) d
  | gb8 (u : Str) (c d : Char) : P.gcb c ∈ [Gcb.lvt, .t] → P.gcb d = .t → Ties P (u ++ [c]) d
  | gb9 (u : Str) (d : Char) : P.gcb d ∈ [Gcb.extend, .zwj] → Ties P u d
  | gb9a (u : Str) (d : Char) : P.gcb d = .spacingMark → Ties P u d
  | gb9b (u : Str) (c d : Char) : P.gcb c = .prepend → Ties P (u ++ [c]) d
  | gb9c (u m : Str) (c d : Char) : P.incb c = .consonant → (∀ x ∈ m, P.incb x = .extend ∨ P.incb x = .linker) →
      (∃ x ∈ m, P.incb x = .linker) → P.incb d = .consonant → Ties P (u ++ c :: m) d
  | gb11 (u m : Str) (c z d : Char) : P.pict c = true → (∀ x ∈ m, P.gcb x = .extend) → P.gcb z = .zwj → P.pict d = true →
      Ties P (u ++ c :: m ++ [z]) d
  | gb12 (m : Str) (d : Char) : (∀ x ∈ m, P.gcb x = .ri) → m.length % 2 = 1 → P.gcb d = .ri → Ties P m d
  | gb13 (u m : Str) (c d : Char) : P.gcb c ≠ .ri → (∀ x ∈ m, P.gcb x = .ri) → m.length % 2 = 1 → P.gcb d = .ri →
      Ties P (u ++ c :: m) d

/-- There is no boundary between `u` and `d`: the rules in their order. -/
def Joined (P : Table) (u : Str) (d : Char) : Prop :=
  (∃ x c, u = x ++ [c] ∧ P.gcb c = .cr ∧ P.gcb d = .lf) ∨
  (∃ x c, u = x ++ [c] ∧ ¬ Hard (P.gcb c)) ∧ ¬ Hard (P.gcb d) ∧ Ties P u d

/-- The text is split exactly at the boundaries. -/
structure SplitByRules (P : Table) (text : Str) (gs : List Str) : Prop where
  flatten : gs.flatten = text
  nonempty : [] ∉ gs
  bounds : ∀ u d v, text = u ++ d :: v → u ≠ [] → ((∃ a b, gs = a ++ b ∧ a.flatten = u) ↔ ¬ Joined P u d)

/-- What is used of the tables: pictographs and consonants have no property `Grapheme_Cluster_Break`, and the characters that may stand
between consonants are marks or joiners. -/
structure Table.Consistent (P : Table) : Prop where
  pict : ∀ c, P.pict c = true → P.gcb c = .other
  consonant : ∀ c, P.incb c = .consonant → P.gcb c = .other
  between : ∀ c, P.incb c = .extend ∨ P.incb c = .linker → P.gcb c = .extend ∨ P.gcb c = .zwj

/-- What the tables say about ASCII characters. -/
structure Table.Ascii (P : Table) : Prop where
  cr : P.gcb '\r' = .cr
  lf : P.gcb '\n' = .lf
  control : ∀ c : Char, c.toNat < 32 ∨ c.toNat = 127 → c ≠ '\r' → c ≠ '\n' → P.gcb c = .control
  other : ∀ c : Char, 32 ≤ c.toNat → c.toNat < 127 → P.gcb c = .other
  pict : ∀ c : Char, c.toNat < 128 → P.pict c = false
  incb : ∀ c : Char, c.toNat < 128 → P.incb c = .none

end Unicode
end Dandy
