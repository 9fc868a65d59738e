import Verif.Proofs.DrawTexts
import Verif.Props.DrawSize
/-!
# The texts of a drawing are apart from lines and from each other

Property C121.
-/

namespace Dandy

open Draw

private theorem draw_texts {o : Options} {d e : Rat} (hL : o.Legible d) (hd : 0 ≤ d) (he : 0 ≤ e) (h1 : e ≤ o.step / 2) (h2 : e ≤ o.floorHeight)
    {ord : List GroupedArrow → List GroupedArrow} (states : List Draw.State) {arrows : List Arrow} {ls : Nat → Nat → List Str}
    (hg : Groups ls (groupArrows ord arrows)) :
    ∃ ops, draw o ord states arrows = some ops ∧ Unstruck (d * o.xScale) ops ∧ Spread (e * o.xScale) ops := by
  obtain ⟨placed, levels, h3, h4⟩ := layout_ok ord arrows hg
  refine ⟨(rawOps o states placed levels).map (Op.place ⟨o.xOffset, o.yOffset⟩ ⟨o.xScale, o.yScale⟩), ?_, raw_unstruck hL hd h4.below,
    raw_spread hL.roomy states (fun g h => Oriented.le (hg.oriented g h)) h4 he h1 h2⟩
  unfold draw
  rw [h3]
  rfl

/-- **C121** In the drawing of a valid DFA no line comes closer to the centre of a text than the options say, and any two texts are half a step
from state to state or the height of a floor apart (`e` is at most both). -/
theorem C121_dfa (o : Options) (d e : Rat) (hL : o.Legible d) (hd : 0 ≤ d) (he : 0 ≤ e) (h1 : e ≤ o.step / 2) (h2 : e ≤ o.floorHeight)
    (ord : List GroupedArrow → List GroupedArrow) (ho : ∀ l, (ord l).Perm l) (m : Dfa) (h : m.WF) :
    ∃ ops, drawDfa o ord m = some ops ∧ Unstruck (d * o.xScale) ops ∧ Spread (e * o.xScale) ops := by
  obtain ⟨as, g1, g2⟩ := dfa_groups ord ho h
  unfold drawDfa
  rw [g1]
  exact draw_texts hL hd he h1 h2 _ g2

/-- **C121** The same for NFAs. -/
theorem C121_nfa (o : Options) (d e : Rat) (hL : o.Legible d) (hd : 0 ≤ d) (he : 0 ≤ e) (h1 : e ≤ o.step / 2) (h2 : e ≤ o.floorHeight)
    (ord : List GroupedArrow → List GroupedArrow) (ho : ∀ l, (ord l).Perm l) (n : Nfa) (h : n.WF) :
    ∃ ops, drawNfa o ord n = some ops ∧ Unstruck (d * o.xScale) ops ∧ Spread (e * o.xScale) ops := by
  obtain ⟨as, g1, g2⟩ := nfa_groups ord ho h
  unfold drawNfa
  rw [g1]
  exact draw_texts hL hd he h1 h2 _ g2

private theorem default_legible : Options.default.Legible 5 := by
  refine ⟨C120_default.1, ?_, ?_, ?_⟩ <;> (try constructor) <;> decide +kernel

/-- **C121** With the default options lines are at least 5 away from the centre of each text, texts at least 25 from each other. -/
theorem C121_default (ord : List GroupedArrow → List GroupedArrow) (ho : ∀ l, (ord l).Perm l) :
    (∀ m : Dfa, m.WF → ∃ ops, drawDfa Options.default ord m = some ops ∧ Unstruck 5 ops ∧ Spread 25 ops) ∧
    (∀ n : Nfa, n.WF → ∃ ops, drawNfa Options.default ord n = some ops ∧ Unstruck 5 ops ∧ Spread 25 ops) := by
  have e1 : (5 : Rat) * Options.default.xScale = 5 := by decide +kernel
  have e2 : (25 : Rat) * Options.default.xScale = 25 := by decide +kernel
  constructor
  · intro m h
    have := C121_dfa Options.default 5 25 default_legible (by decide +kernel) (by decide +kernel) (by decide +kernel) (by decide +kernel) ord ho m h
    rwa [e1, e2] at this
  · intro n h
    have := C121_nfa Options.default 5 25 default_legible (by decide +kernel) (by decide +kernel) (by decide +kernel) (by decide +kernel) ord ho n h
    rwa [e1, e2] at this

example : Samples.endsB.WF ∧ Samples.evenA.WF := ⟨Samples.endsB_wf, Samples.evenA_wf⟩

/-- **C121** The condition on the margin of texts is necessary: with a margin as high as a floor, which does not lead out of the drawing
(`Roomy`), the arrow above goes through the label. -/
theorem C121_margin_false : ({ Options.default with textMargin := 25 } : Options).Roomy ∧ Samples.endsB.WF ∧
    ∃ ops, drawDfa { Options.default with textMargin := 25 } id Samples.endsB = some ops ∧ ∀ d, 0 < d → ¬ Unstruck d ops := by
  refine ⟨?_, Samples.endsB_wf, ?_⟩
  · constructor <;> (try constructor) <;> (try constructor) <;> decide +kernel
  · cases e : drawDfa { Options.default with textMargin := 25 } id Samples.endsB with
    | none => exact absurd e (by decide +kernel)
    | some ops =>
      refine ⟨ops, rfl, ?_⟩
      intro d hd hu
      have h1 : ((drawDfa { Options.default with textMargin := 25 } id Samples.endsB).map
        (fun ops => decide (Op.line ⟨115, 25⟩ ⟨165, 25⟩ 3 ∈ ops ∧ ((⟨140, 25⟩, c!"b") : Pos2 × Str) ∈ texts ops))) = some true := by decide +kernel
      rw [e] at h1
      have h2 := of_decide_eq_true (Option.some.inj h1)
      have h3 := hu ⟨115, 25⟩ ⟨165, 25⟩ ⟨3, h2.1⟩ ⟨140, 25⟩ c!"b" h2.2 (1 / 2) (by norm_num) (by norm_num)
      simp only [Pos2.Apart, Pos2.along] at h3
      norm_num at h3
      exact absurd h3 (not_le.2 hd)

/-! ## Instances of the theorems of this file -/

example := C121_dfa Options.default 5 25 default_legible (by decide +kernel) (by decide +kernel) (by decide +kernel) (by decide +kernel)
  List.reverse (fun l => List.reverse_perm l) Samples.endsB Samples.endsB_wf
example := C121_nfa Options.default 5 25 default_legible (by decide +kernel) (by decide +kernel) (by decide +kernel) (by decide +kernel)
  List.reverse (fun l => List.reverse_perm l) Samples.epsNfa Samples.epsNfa_wf

end Dandy
