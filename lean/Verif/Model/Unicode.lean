import Verif.Model.Types
/-!
# Grapheme clusters

Model of `UnicodeSegmentation::graphemes(_, true)` of the crate unicode-segmentation (dandy/Cargo.toml:13), which is called in
dandy/src/parser/regex.rs:89, dandy/src/dfa/mod.rs:815, 848 and dandy/src/nfa/mod.rs:1138, 1150. The source of the crate is not part of the
repository: it is modelled after the standard it implements (Unicode Standard Annex 29, extended grapheme clusters). The tables of the
properties of characters are a parameter. Versions of the crate before Unicode 15.1 do not have the rule GB9c; they are covered by
a table in which no character has a property `InCB`.
-/

namespace Dandy
namespace Unicode

/-- The property `Grapheme_Cluster_Break` of Unicode Standard Annex 29. Called at
dandy/src/parser/regex.rs:89, dandy/src/dfa/mod.rs:815, dandy/src/nfa/mod.rs:1138 (crate
unicode-segmentation). -/
inductive Gcb where
  | other | cr | lf | control | extend | zwj | ri | prepend | spacingMark | l | v | t | lv | lvt
deriving DecidableEq

/-- The property `Indic_Conjunct_Break` of Unicode Standard Annex 44. Called at
dandy/src/parser/regex.rs:89, dandy/src/dfa/mod.rs:815, dandy/src/nfa/mod.rs:1138 (crate
unicode-segmentation). -/
inductive Incb where
  | none | consonant | extend | linker
deriving DecidableEq

/-- The tables of the crate: for each character the two properties above and whether it is `Extended_Pictographic`.
Called at dandy/src/parser/regex.rs:89, dandy/src/dfa/mod.rs:815, dandy/src/nfa/mod.rs:1138
(crate unicode-segmentation). -/
structure Table where
  gcb : Char → Gcb
  incb : Char → Incb
  pict : Char → Bool

variable (P : Table)

/-- The rules GB3 to GB8, GB9, GB9a and GB9b: those that only look at the two characters. `none`: no rule applies.
Called at dandy/src/parser/regex.rs:89, dandy/src/dfa/mod.rs:815, dandy/src/nfa/mod.rs:1138
(crate unicode-segmentation). -/
def pairRule (x y : Gcb) : Option Bool :=
  if x = .cr ∧ y = .lf then some true
  else if x = .control ∨ x = .cr ∨ x = .lf then some false
  else if y = .control ∨ y = .cr ∨ y = .lf then some false
  else if x = .l ∧ (y = .l ∨ y = .v ∨ y = .lv ∨ y = .lvt) then some true
  else if (x = .lv ∨ x = .v) ∧ (y = .v ∨ y = .t) then some true
  else if (x = .lvt ∨ x = .t) ∧ y = .t then some true
  else if y = .extend ∨ y = .zwj ∨ y = .spacingMark ∨ x = .prepend then some true
  else none

/-- The rule GB9c, looking back over the characters read so far (the last one first). Called at
dandy/src/parser/regex.rs:89, dandy/src/dfa/mod.rs:815, dandy/src/nfa/mod.rs:1138 (crate
unicode-segmentation). -/
def conjunct (left : Str) (d : Char) : Bool :=
  let between := fun c => P.incb c = .extend ∨ P.incb c = .linker
  P.incb d = .consonant && (left.takeWhile between).any (fun c => P.incb c = .linker) &&
    ((left.dropWhile between).head?.map (fun c => decide (P.incb c = .consonant))).getD false

/-- The rule GB11. Called at dandy/src/parser/regex.rs:89, dandy/src/dfa/mod.rs:815,
dandy/src/nfa/mod.rs:1138 (crate unicode-segmentation). -/
def emoji (left : Str) (d : Char) : Bool :=
  match left with
  | [] => false
  | c :: rest => P.pict d && decide (P.gcb c = .zwj) &&
      (((rest.dropWhile (fun c => P.gcb c = .extend)).head?).map P.pict).getD false

/-- The rules GB12 and GB13: an odd number of regional indicators before. Called at
dandy/src/parser/regex.rs:89, dandy/src/dfa/mod.rs:815, dandy/src/nfa/mod.rs:1138 (crate
unicode-segmentation). -/
def flag (left : Str) (d : Char) : Bool :=
  decide (P.gcb d = .ri) && decide ((left.takeWhile (fun c => P.gcb c = .ri)).length % 2 = 1)

/-- Is there no boundary before `d`, after the characters `left` (the last one first)? Called at
dandy/src/parser/regex.rs:89, dandy/src/dfa/mod.rs:815, dandy/src/nfa/mod.rs:1138 (crate
unicode-segmentation). -/
def keeps (left : Str) (d : Char) : Bool :=
  match left with
  | [] => false
  | c :: _ => (pairRule (P.gcb c) (P.gcb d)).getD (conjunct P left d || emoji P left d || flag P left d)

/-- The clusters of the rest of a text, after the characters `left` (the last one first), where `cur` is the cluster begun.
Called at dandy/src/parser/regex.rs:89, dandy/src/dfa/mod.rs:815, dandy/src/nfa/mod.rs:1138
(crate unicode-segmentation). -/
def segFrom (left cur : Str) : Str → List Str
  | [] => if cur = [] then [] else [cur]
  | d :: rest =>
    if keeps P left d then segFrom (d :: left) (cur ++ [d]) rest
    else if cur = [] then segFrom (d :: left) [d] rest
    else cur :: segFrom (d :: left) [d] rest

/-- `UnicodeSegmentation::graphemes(text, true)`. Called at dandy/src/parser/regex.rs:89,
dandy/src/dfa/mod.rs:815, dandy/src/nfa/mod.rs:1138 (crate unicode-segmentation). -/
def graphemes (text : Str) : List Str := segFrom P [] [] text

/-- The length of what `text.graphemes(true).next()` returns (0 at the end). Called at
dandy/src/parser/regex.rs:89, dandy/src/dfa/mod.rs:815, dandy/src/nfa/mod.rs:1138 (crate
unicode-segmentation). -/
def firstCluster (text : Str) : Nat := ((graphemes P text).head?.map List.length).getD 0

end Unicode
end Dandy
