import Verif.Model.Draw
import Verif.Spec.Automata
/-! # Specification of drawings -/

namespace Dandy
namespace Draw

/-- `Before l₁ r₁ l₂ r₂`: the arrow from `l₁` to `r₁` lies to the left of the one from `l₂` to `r₂`. They share at most the state where
the first one ends, and not even this if the first one is a loop. -/
def Before (l₁ r₁ l₂ r₂ : Nat) : Prop := r₁ ≤ l₂ ∧ (l₁ = r₁ → r₁ < l₂)

/-- The state where the transitions of a group begin. -/
def GroupedArrow.source (g : GroupedArrow) : Nat := if g.direction = .left then g.right else g.left

/-- The state where the transitions of a group end. -/
def GroupedArrow.target (g : GroupedArrow) : Nat := if g.direction = .left then g.left else g.right

/-- Left end, right end and direction fit together. -/
def GroupedArrow.Oriented (g : GroupedArrow) : Prop :=
  match g.direction with
  | .spot => g.left = g.right
  | _ => g.left < g.right

/-- What a drawing has to show of a state of a DFA, apart from the transitions. -/
def dfaState (s : DfaState) : State := { name := s.name, initial := s.initial, accepting := s.accepting }

/-- What a drawing has to show of a state of an NFA, apart from the transitions. -/
def nfaState (s : NfaState) : State := { name := s.name, initial := s.initial, accepting := s.accepting }

/-- The elements with which a DFA goes from state `i` to state `j`, in the order of the alphabet. -/
def dfaLabels (d : Dfa) (i j : Nat) : List Str :=
  match d.states[i]? with
  | none => []
  | some s => ((d.alphabet.zip s.transitions).filter (fun x => x.2 = j)).map (·.1)

/-- The elements with which an NFA goes from state `i` to state `j`, in the order of the alphabet, then `ε` if there is an epsilon move
(an element is repeated if the target is). -/
def nfaLabels (n : Nfa) (i j : Nat) : List Str :=
  match n.states[i]? with
  | none => []
  | some s => (n.alphabet.zip s.transitions).flatMap (fun x => List.replicate (x.2.count j) x.1) ++
      List.replicate (s.epsilonTransitions.count j) c!"ε"

/-- `gs` has one group for every pair of states between which there is a label, with these labels, and nothing else. -/
structure Groups (ls : Nat → Nat → List Str) (gs : List GroupedArrow) : Prop where
  oriented : ∀ g ∈ gs, g.Oriented
  labels : ∀ g ∈ gs, g.labels = ls g.source g.target ∧ g.labels ≠ []
  all : ∀ i j, ls i j ≠ [] → ∃ g ∈ gs, g.source = i ∧ g.target = j
  once : gs.Pairwise (fun g g' => ¬ (g.source = g'.source ∧ g.target = g'.target))

/-- The arrows `as` are placed on `levels` levels: each once, every level is used, arrows on the same level come from left to right and do
not overlap, and no arrow could be put at the right end of what is on a lower level and does not reach further to the right. -/
structure Placement {α : Type} (left right : α → Nat) (as : List α) (placed : List (PlacedArrow α)) (levels : Nat) : Prop where
  each : (placed.map (·.arrow)).Perm as
  below : ∀ p ∈ placed, p.level < levels
  used : ∀ l < levels, ∃ p ∈ placed, p.level = l
  apart : placed.Pairwise (fun p q => p.level = q.level → Before (left p.arrow) (right p.arrow) (left q.arrow) (right q.arrow))
  tight : ∀ q ∈ placed, ∀ l < q.level, ∃ p ∈ placed, p.level = l ∧ right p.arrow ≤ right q.arrow ∧
    ¬ Before (left p.arrow) (right p.arrow) (left q.arrow) (right q.arrow)

/-! ## ASCII art

With `w` the length of the longest name, the name of state `i` is written in columns `(w + 7) * i + 6` and following. -/

/-- The column directly before the (padded) name of a state. -/
def enterCol (w i : Nat) : Nat := (w + 7) * i + 5

/-- The column directly after the (padded) name of a state. -/
def leaveCol (w i : Nat) : Nat := (w + 7) * i + 6 + w

/-- The width of the lines above the states. -/
def lineWidth (w n : Nat) : Nat := (w + 7) * n + 5 + w

/-- The columns of the horizontal part of an arrow: from after the name of its left state to before the name of its right state; a loop
goes around the name. -/
def GroupedArrow.Covers (w : Nat) (g : GroupedArrow) (x : Nat) : Prop :=
  if g.left = g.right then enterCol w g.left ≤ x ∧ x ≤ leaveCol w g.left else leaveCol w g.left ≤ x ∧ x ≤ enterCol w g.right

/-- The columns of the vertical parts of an arrow. -/
def GroupedArrow.Bar (w : Nat) (g : GroupedArrow) (x : Nat) : Prop := x = leaveCol w g.left ∨ x = enterCol w g.right

/-- Column and character of the arrow head. -/
def GroupedArrow.head (w : Nat) (g : GroupedArrow) : Nat × Char :=
  match g.direction with
  | .left => (enterCol w g.right - 1, '<')
  | .right => (leaveCol w g.left + 2, '>')
  | .spot => (enterCol w g.left + 1, '>')

/-- The label of a group as it is written: the elements separated by commas. -/
def GroupedArrow.written (g : GroupedArrow) : Str := List.intercalate c!", " g.labels

/-- The label (of an arrow that is not a loop) has the character `c` in column `x`. -/
def GroupedArrow.Shows (w : Nat) (g : GroupedArrow) (x : Nat) (c : Char) : Prop :=
  g.left ≠ g.right ∧ leaveCol w g.left < x ∧ g.written[x - (leaveCol w g.left + 1)]? = some c

/-- The label is not longer than the horizontal part of the arrow. -/
def GroupedArrow.Fits (w : Nat) (g : GroupedArrow) : Prop :=
  g.left ≠ g.right → leaveCol w g.left + g.written.length < enterCol w g.right

/-- The upper line of a level: the horizontal parts of the arrows of this level with their heads, on top of the vertical parts of the
arrows of higher levels; blank elsewhere. -/
structure UpperLine (w n : Nat) (placed : List (PlacedArrow GroupedArrow)) (level : Nat) (line : Str) : Prop where
  width : line.length = lineWidth w n
  arrow : ∀ p ∈ placed, p.level = level → ∀ x, p.arrow.Covers w x →
    line[x]? = some (if x = (p.arrow.head w).1 then (p.arrow.head w).2 else '-')
  bar : ∀ x, (∀ p ∈ placed, p.level = level → ¬ p.arrow.Covers w x) → (∃ p ∈ placed, level < p.level ∧ p.arrow.Bar w x) →
    line[x]? = some '|'
  blank : ∀ x < lineWidth w n, (∀ p ∈ placed, p.level = level → ¬ p.arrow.Covers w x) →
    (∀ p ∈ placed, level < p.level → ¬ p.arrow.Bar w x) → line[x]? = some ' '

/-- The lower line of a level: the labels of the arrows of this level, on top of the vertical parts of the arrows of this and higher
levels; blank elsewhere. -/
structure LowerLine (w n : Nat) (placed : List (PlacedArrow GroupedArrow)) (level : Nat) (line : Str) : Prop where
  width : line.length = lineWidth w n
  label : ∀ p ∈ placed, p.level = level → ∀ x c, p.arrow.Shows w x c → line[x]? = some c
  bar : ∀ x, (∀ p ∈ placed, p.level = level → ∀ c, ¬ p.arrow.Shows w x c) → (∃ p ∈ placed, level ≤ p.level ∧ p.arrow.Bar w x) →
    line[x]? = some '|'
  blank : ∀ x < lineWidth w n, (∀ p ∈ placed, p.level = level → ∀ c, ¬ p.arrow.Shows w x c) →
    (∀ p ∈ placed, level ≤ p.level → ¬ p.arrow.Bar w x) → line[x]? = some ' '

/-- The lines above the states, highest level first. -/
inductive LevelLines (w n : Nat) (placed : List (PlacedArrow GroupedArrow)) : Nat → List Str → Prop
  | zero : LevelLines w n placed 0 []
  | succ {level : Nat} {top bot : Str} {lines : List Str} : UpperLine w n placed level top → LowerLine w n placed level bot →
      LevelLines w n placed level lines → LevelLines w n placed (level + 1) (top :: bot :: lines)

/-- `w` is the length of the longest name. -/
def Longest (states : List State) (w : Nat) : Prop := (∃ s ∈ states, s.name.length = w) ∧ ∀ s ∈ states, s.name.length ≤ w

/-- The line of the states: every name in its columns, padded, in brackets that are doubled for accepting states. -/
structure StateLine (w : Nat) (states : List State) (line : Str) : Prop where
  width : line.length = (w + 7) * states.length + 3
  arrow : line.take 3 = c!"-> "
  state : ∀ i s, states[i]? = some s →
    (∀ t c, s.name[t]? = some c → line[(w + 7) * i + 6 + t]? = some c) ∧
    (∀ t, s.name.length ≤ t → t < w → line[(w + 7) * i + 6 + t]? = some ' ') ∧
    line[(w + 7) * i + 3]? = some '(' ∧ line[(w + 7) * i + 4]? = some (if s.accepting then '(' else ' ') ∧
    line[(w + 7) * i + 5]? = some ' ' ∧
    line[(w + 7) * i + 6 + w]? = some ' ' ∧ line[(w + 7) * i + 6 + w + 1]? = some (if s.accepting then ')' else ' ') ∧
    line[(w + 7) * i + 6 + w + 2]? = some ')' ∧ line[(w + 7) * i + 6 + w + 3]? = some ' '

/-- The whole picture of groups placed on levels. -/
def Picture (w : Nat) (states : List State) (placed : List (PlacedArrow GroupedArrow)) (levels : Nat) (art : Str) : Prop :=
  ∃ lines last, LevelLines w states.length placed levels lines ∧ StateLine w states last ∧
    art = List.intercalate c!"\n" (lines ++ [last])

/-! ## Drawing on a canvas -/

/-- The texts that are drawn. -/
def texts (ops : List Op) : List (Pos2 × Str) := ops.filterMap (fun op => match op with
  | .text pos s => some (pos, s)
  | _ => none)

/-- The circles that are drawn: position and radius. -/
def circles (ops : List Op) : List (Pos2 × Rat) := ops.filterMap (fun op => match op with
  | .circle pos radius _ => some (pos, radius)
  | _ => none)

/-- A line is drawn from `a` to `b`. -/
def HasLine (ops : List Op) (a b : Pos2) : Prop := ∃ t, Op.line a b t ∈ ops

/-- Offset and scale. -/
def Options.onCanvas (o : Options) (x y : Rat) : Pos2 := ⟨(x + o.xOffset) * o.xScale, (y + o.yOffset) * o.yScale⟩

/-- The distance from one state to the next. -/
def Options.step (o : Options) : Rat := o.circleRadius * 2 + o.centerLinePadding

/-- The centre of the circle of a state. -/
def Options.stateX (o : Options) (i : Nat) : Rat := o.initArrowLength + o.centerLinePadding + o.circleRadius + o.step * (i : Rat)

/-- The height where the vertical lines end (the y-axis points downwards). -/
def Options.baseY (o : Options) (levels : Nat) : Rat := ((levels : Rat) + 1) * o.floorHeight

/-- The height of the states. -/
def Options.stateY (o : Options) (levels : Nat) : Rat := o.baseY levels + o.lineCircleMargin + o.circleRadius

/-- The height of the horizontal part of an arrow. -/
def Options.levelY (o : Options) (levels level : Nat) : Rat := o.floorHeight * ((levels : Rat) - (level : Rat))

/-- Where an arrow leaves its left state. -/
def Options.leftEnd (o : Options) (g : GroupedArrow) : Rat := o.stateX g.left + o.fromLineOffset

/-- Where an arrow reaches its right state. -/
def Options.rightEnd (o : Options) (g : GroupedArrow) : Rat := o.stateX g.right - o.toLineOffset

/-- Where an arrow reaches its target (a loop: the right side of its state). -/
def Options.targetEnd (o : Options) (g : GroupedArrow) : Rat := if g.source < g.target then o.rightEnd g else o.leftEnd g

/-- The lines of the mark of an initial state below its circle. -/
def Marked (o : Options) (levels i : Nat) (ops : List Op) : Prop :=
  HasLine ops (o.onCanvas (o.stateX i) (o.stateY levels + (o.circleRadius + o.centerLinePadding)))
    (o.onCanvas (o.stateX i) (o.stateY levels + (o.circleRadius + o.centerLinePadding) + o.initArrowLength))

/-- Sizes for which the drawing makes sense. -/
structure Options.Sensible (o : Options) : Prop where
  scaleX : o.xScale ≠ 0
  scaleY : o.yScale ≠ 0
  radius : 0 < o.circleRadius
  padding : 0 ≤ o.centerLinePadding
  margin : 0 ≤ o.lineCircleMargin
  floor : 0 < o.floorHeight
  fromOffset : 0 ≤ o.fromLineOffset
  toOffset : 0 ≤ o.toLineOffset
  offsets : o.fromLineOffset + o.toLineOffset ≤ o.step

/-- `ops` draws the states with circles, doubled for accepting ones, names in them, a mark exactly at the initial ones; and the groups as
arrows with two vertical and one horizontal line, a head at the target and the label above its middle. -/
structure DrawnOn (o : Options) (states : List State) (placed : List (PlacedArrow GroupedArrow)) (levels : Nat) (ops : List Op) : Prop where
  texts : texts ops = states.zipIdx.map (fun x => (o.onCanvas (o.stateX x.2) (o.stateY levels), x.1.name)) ++
    placed.map (fun p => (o.onCanvas ((o.leftEnd p.arrow + o.rightEnd p.arrow) / 2) (o.levelY levels p.level - o.textMargin), p.arrow.written))
  circles : circles ops = states.zipIdx.flatMap (fun x =>
    (o.onCanvas (o.stateX x.2) (o.stateY levels), o.circleRadius * o.xScale) ::
      if x.1.accepting then [(o.onCanvas (o.stateX x.2) (o.stateY levels), o.acceptingCircleRadius * o.xScale)] else [])
  initial : ∀ i s, states[i]? = some s → (Marked o levels i ops ↔ s.initial = true)
  lines : ∀ p ∈ placed,
    HasLine ops (o.onCanvas (o.leftEnd p.arrow) (o.baseY levels)) (o.onCanvas (o.leftEnd p.arrow) (o.levelY levels p.level)) ∧
    HasLine ops (o.onCanvas (o.rightEnd p.arrow) (o.baseY levels)) (o.onCanvas (o.rightEnd p.arrow) (o.levelY levels p.level)) ∧
    HasLine ops (o.onCanvas (o.leftEnd p.arrow) (o.levelY levels p.level)) (o.onCanvas (o.rightEnd p.arrow) (o.levelY levels p.level))
  heads : ∀ p ∈ placed, o.endArrow = true →
    HasLine ops (o.onCanvas (o.targetEnd p.arrow) (o.baseY levels))
      (o.onCanvas (o.targetEnd p.arrow - o.transArrowArmsLength) (o.baseY levels - o.transArrowArmsLength)) ∧
    HasLine ops (o.onCanvas (o.targetEnd p.arrow) (o.baseY levels))
      (o.onCanvas (o.targetEnd p.arrow - -o.transArrowArmsLength) (o.baseY levels - o.transArrowArmsLength))
  apart : placed.Pairwise (fun p q => o.levelY levels p.level = o.levelY levels q.level →
    max (o.leftEnd p.arrow) (o.rightEnd p.arrow) ≤ min (o.leftEnd q.arrow) (o.rightEnd q.arrow))
  above : ∀ p ∈ placed, 0 < o.levelY levels p.level ∧ o.levelY levels p.level < o.baseY levels

end Draw
end Dandy
