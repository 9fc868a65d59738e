import Verif.Model.Window
import Verif.Spec.Backends
import Verif.Spec.TableText
import Verif.Spec.Validate
/-! # What the window is to show -/

namespace Dandy
namespace Window
open Draw

/-- The text in the area after the frames: the one of the last edit, or `t` before the first one. -/
inductive Typed (t : Str) : List Frame → Str → Prop
  | start {fs : List Frame} : (∀ f ∈ fs, f.edit = none) → Typed t fs t
  | edited {fs gs : List Frame} {f : Frame} {u : Str} : f.edit = some u → (∀ g ∈ gs, g.edit = none) → Typed t (fs ++ f :: gs) u

/-- The text that was in the area at the last click, or `t` before the first one. -/
inductive Submitted (t : Str) : List Frame → Str → Prop
  | start {fs : List Frame} : (∀ f ∈ fs, f.clicked = false) → Submitted t fs t
  | clicked {fs gs : List Frame} {f : Frame} {u : Str} : f.clicked = true → (∀ g ∈ gs, g.clicked = false) → Typed t (fs ++ [f]) u →
    Submitted t (fs ++ f :: gs) u

/-- The text is a table of this DFA. -/
def IsTable (t : Str) (d : Dfa) : Prop := ∃ p : ParsedDfa, TableText.DfaText p t ∧ p.Legal ∧ p.Describes d

/-- The shapes are exactly those of a drawing of the DFA with the offset (20, 150). -/
def Shows (d : Dfa) (ss : List Egui.Shape) : Prop :=
  ∃ o ops gs placed levels, o = { Options.default with xOffset := 20, yOffset := 150 } ∧
    Groups (dfaLabels d) gs ∧ Placement GroupedArrow.left GroupedArrow.right gs placed levels ∧
    DrawnOn o (d.states.map Draw.dfaState) placed levels ops ∧
    lines ops = o.leftArrow levels ++ o.mark levels d.initialState ++ placed.flatMap (o.arrow levels) ∧
    List.Forall₂ Egui.Visible ss (items (0, 255, 0) ops) ∧ ∀ it ∈ items (0, 255, 0) ops, it.Coloured o

end Window
end Dandy
