import Verif.Model.Draw
import Verif.Model.AlgCost
/-!
# The work of drawing (dandy-draw/src/lib.rs)

Counted as in `Verif.Model.AlgCost`: one step for every item that a loop or an iterator adaptor handles, for every item that is pushed or popped, for
every call of the drawer, for every byte that is written or moved; an access to a hash map or hash set with numbers is one step.
-/

namespace Dandy
namespace Draw

/-- Work of `dfa_to_arrows` (dandy-draw/src/lib.rs:450-462). -/
def dfaArrowsCost (d : Dfa) : Nat := (d.states.map (fun s => 1 + s.transitions.length)).sum

/-- Work of `nfa_to_arrows` (dandy-draw/src/lib.rs:464-485). -/
def nfaArrowsCost (n : Nfa) : Nat :=
  (n.states.map (fun s => 1 + (s.transitions.map (fun tos => 1 + tos.length)).sum + s.epsilonTransitions.length)).sum

section place
variable {α : Type} (left right : α → Nat)

/-- Work of the loop of `place_arrows` (dandy-draw/src/lib.rs:494-516): in a pass every arrow is popped and pushed somewhere, and those left are
reversed. -/
def placeLoopCost : Nat → Nat → List α → Nat
  | 0, _, _ => 0
  | fuel + 1, depth, unplaced =>
    1 + if unplaced.isEmpty then 0
    else
      let later := (pass left right depth 0 unplaced.reverse).2
      2 * unplaced.length + later.length + placeLoopCost fuel (depth + 1) later.reverse

/-- Work of `place_arrows` (dandy-draw/src/lib.rs:487-519). -/
def placeCost (as : List α) : Nat := sortCost as.length + placeLoopCost left right (as.length + 1) 0 (sortArrows right as)

end place

/-- Work of `group_arrows` (dandy-draw/src/lib.rs:521-538): an entry and a push for every arrow, then every group with its labels. -/
def groupCost (ord : List GroupedArrow → List GroupedArrow) (as : List Arrow) : Nat :=
  2 * as.length + ((groupArrows ord as).map (fun g => 1 + g.labels.length)).sum

/-- Work of grouping and placing (dandy-draw/src/lib.rs:170-171, 332-333). -/
def layoutCost (ord : List GroupedArrow → List GroupedArrow) (as : List Arrow) : Nat :=
  groupCost ord as + placeCost GroupedArrow.left GroupedArrow.right (groupArrows ord as)

/-- Work of `draw` (dandy-draw/src/lib.rs:156-314): the calls of the drawer and the joined labels. -/
def drawCost (o : Options) (ord : List GroupedArrow → List GroupedArrow) (states : List State) (arrows : List Arrow) : Nat :=
  layoutCost ord arrows + match layout ord arrows, draw o ord states arrows with
    | some (placed, _), some ops => ops.length + (placed.map (fun p => p.arrow.label.length)).sum
    | _, _ => 0

/-- Work of `draw_dfa_with_opts` (dandy-draw/src/lib.rs:140-144). -/
def drawDfaCost (o : Options) (ord : List GroupedArrow → List GroupedArrow) (d : Dfa) : Nat :=
  d.states.length + dfaArrowsCost d + match dfaToArrows d with
    | some arrows => drawCost o ord (d.states.map State.ofDfa) arrows
    | none => 0

/-- Work of `draw_nfa_with_opts` (dandy-draw/src/lib.rs:150-154). -/
def drawNfaCost (o : Options) (ord : List GroupedArrow → List GroupedArrow) (n : Nfa) : Nat :=
  n.states.length + nfaArrowsCost n + match nfaToArrows n with
    | some arrows => drawCost o ord (n.states.map State.ofNfa) arrows
    | none => 0

/-- Work of writing the labels of a level (dandy-draw/src/lib.rs:415-442): joining the label, counting its characters, going to the place in the line,
and moving what comes after it. -/
def writeLabelsCost (w : Nat) : List GroupedArrow → Str → Nat
  | [], _ => 0
  | g :: gs, bot =>
    1 + (if g.left ≠ g.right then 2 * RegexTree.byteLen g.label + 2 * RegexTree.byteLen bot else 0) +
      match writeLabel w bot g with
      | some bot => writeLabelsCost w gs bot
      | none => 0

/-- Work of one level (dandy-draw/src/lib.rs:370-445): two blank lines, the bars, two loops over the arrows; `bars` is the hash set. -/
def levelCost (w n : Nat) (arrows : List (PlacedArrow GroupedArrow)) (level : Nat) (bars : List Nat) : Nat :=
  let here := (arrows.filter (fun a => a.level = level)).map (·.arrow)
  let blank := List.replicate (artWidth w n) ' '
  2 * artWidth w n + 2 * bars.eraseDups.length + 2 * arrows.length + (here.map (fun g => (topBytes w g).length + 4)).sum +
    match setBytes blank ((bars ++ here.flatMap (barsOf w)).map (fun b => (b, '|'))) with
    | some bot => writeLabelsCost w here bot
    | none => 0

/-- Work of the loop over the levels (dandy-draw/src/lib.rs:368-445) and of joining the lines (line 448). -/
def artLinesCost (w n : Nat) (arrows : List (PlacedArrow GroupedArrow)) : Nat → List Nat → Nat
  | 0, _ => 1
  | level + 1, bars =>
    levelCost w n arrows level bars + match levelLines w n arrows level bars with
      | some (top, bot, bars) => RegexTree.byteLen top + RegexTree.byteLen bot + 2 + artLinesCost w n arrows level bars
      | none => 0

/-- Work of `ascii_art` (dandy-draw/src/lib.rs:328-449): the longest name, the layout, the line of the states (written and joined to the others), the
levels. -/
def artCost (ord : List GroupedArrow → List GroupedArrow) (states : List State) (arrows : List Arrow) : Nat :=
  (states.map (fun s => 1 + RegexTree.byteLen s.name)).sum + layoutCost ord arrows + match widest states, layout ord arrows with
    | some w, some (placed, levels) => 2 * RegexTree.byteLen (lastLine w states) + artLinesCost w states.length placed levels []
    | _, _ => 0

/-- Work of `dfa_ascii_art` (dandy-draw/src/lib.rs:316-320). -/
def dfaArtCost (ord : List GroupedArrow → List GroupedArrow) (d : Dfa) : Nat :=
  d.states.length + dfaArrowsCost d + match dfaToArrows d with
    | some arrows => artCost ord (d.states.map State.ofDfa) arrows
    | none => 0

/-- Work of `nfa_ascii_art` (dandy-draw/src/lib.rs:322-326). -/
def nfaArtCost (ord : List GroupedArrow → List GroupedArrow) (n : Nfa) : Nat :=
  n.states.length + nfaArrowsCost n + match nfaToArrows n with
    | some arrows => artCost ord (n.states.map State.ofNfa) arrows
    | none => 0

end Draw
end Dandy
