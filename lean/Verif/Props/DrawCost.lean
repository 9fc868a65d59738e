import Verif.Spec.DrawCost
import Verif.Proofs.DrawCost
import Verif.Props.DrawLevels
/-! # C108: the work of drawing -/

namespace Dandy
open Draw Samples

/-- **C108** The work of placing arrows: each is handled once for every level up to its own. -/
theorem C108_place {α : Type} (left right : α → Nat) (as : List α) (hl : ∀ a ∈ as, left a ≤ right a) (placed : List (PlacedArrow α))
    (levels : Nat) (h : placeArrows left right as = some (placed, levels)) :
    placeCost left right as = sortCost as.length + 1 + levels + (placed.map (fun p => 3 * p.level + 2)).sum :=
  placeCost_eq as hl h

example : placeCost (α := Nat × Nat) (·.1) (·.2) [(0, 2), (0, 0), (0, 1), (1, 2), (0, 3), (1, 1)] = 56 := by decide +kernel

/-- **C108** If at most `m` arrows touch each state, the work besides sorting is linear in the number of arrows. -/
theorem C108_place_crowd {α : Type} (left right : α → Nat) (as : List α) (hl : ∀ a ∈ as, left a ≤ right a) (m : Nat)
    (hm : ∀ x, as.countP (Touches left right x) ≤ m) :
    2 * placeCost left right as ≤ 2 * sortCost as.length + 2 + m * (m + 1) * (3 * as.length + 1) := by
  obtain ⟨placed, levels, h1, _⟩ := C55_place left right as hl
  have h2 := C107_at_most left right as hl placed levels h1 m hm
  have h3 := placeCost_le as hl h1
  have h4 := Nat.mul_le_mul_right (3 * as.length + 1) h2
  have e : 2 * levels * (3 * as.length + 1) = 2 * levels + 2 * (as.length * (3 * levels)) := by ring
  omega

example : 2 * placeCost (α := Nat × Nat) (·.1) (·.2) [(0, 2), (1, 3), (3, 3), (2, 5)] = 66 ∧
    2 * sortCost 4 + 2 + 3 * (3 + 1) * (3 * 4 + 1) = 182 := by decide +kernel

private theorem groups_sum {ls : Nat → Nat → List Str} {n : Nat} {gs : List GroupedArrow} (hg : Groups ls gs) (hi : Inside n ls)
    (f : Str → Nat) : gs.length = (pairsWith ls n).length ∧
    (gs.map (fun g => f g.written)).sum = ((pairsWith ls n).map (fun x => f (List.intercalate c!", " (ls x.1 x.2)))).sum := by
  have hp : (gs.map (fun g => (g.source, g.target))).Perm (pairsWith ls n) := pairs_perm hg hi
  refine ⟨by rw [← hp.length_eq, List.length_map], ?_⟩
  rw [← (hp.map (fun x => f (List.intercalate c!", " (ls x.1 x.2)))).sum_nat, List.map_map]
  congr 1
  refine List.map_congr_left (fun g h => ?_)
  simp only [GroupedArrow.written, (hg.labels g h).1, Function.comp_apply]

private theorem draw_le (o : Options) (ord : List GroupedArrow → List GroupedArrow) (ho : ∀ l, (ord l).Perm l) (states : List State)
    (as : List Arrow) {ls : Nat → Nat → List Str} {n : Nat} (hg : Groups ls (groupArrows ord as)) (hi : Inside n ls) :
    drawCost o ord states as ≤ 4 * as.length ^ 2 + 16 * as.length + 9 * states.length + 7 + labelChars ls n := by
  obtain ⟨placed, levels, h1, h2⟩ := layout_ok ord as hg
  have h3 := drawCost_le o ord ho states as hg h1
  have h4 := (groupArrows_size ord ho as).1
  have h5 := C55_levels _ _ _ (fun g h => Oriented.le (hg.oriented g h)) placed levels h1
  have h6 := Nfa.sortCost_le h4
  have h7 := (groups_sum hg hi List.length).2
  have h8 : (groupArrows ord as).length * (3 * levels) ≤ 3 * as.length ^ 2 := by
    refine Nat.le_trans (Nat.mul_le_mul h4 (Nat.mul_le_mul_left 3 (Nat.le_trans h5 h4))) (Nat.le_of_eq (by ring))
  rw [h7] at h3
  rw [labelChars]
  omega

/-- **C108** Drawing a valid DFA takes at most quadratic time in the number of its transitions, plus the lengths of the labels. -/
theorem C108_dfa (o : Options) (ord : List GroupedArrow → List GroupedArrow) (ho : ∀ l, (ord l).Perm l) (d : Dfa) (h : d.WF) :
    drawDfaCost o ord d ≤ 4 * (d.states.length * d.alphabet.length) ^ 2 + 17 * (d.states.length * d.alphabet.length) + 11 * d.states.length + 7 +
      labelChars (dfaLabels d) d.states.length := by
  obtain ⟨as, h1, h2⟩ := dfa_groups ord ho h
  have h3 := draw_le o ord ho (d.states.map State.ofDfa) as h2 (dfa_inside h)
  rw [drawDfaCost, dfaArrowsCost_eq h, h1]
  rw [dfaArrows_length h h1, List.length_map] at h3
  dsimp only
  omega

example : redundant.WF ∧ drawDfaCost Options.default id redundant = 377 ∧
    4 * (6 * 2) ^ 2 + 17 * (6 * 2) + 11 * 6 + 7 + labelChars (dfaLabels redundant) 6 = 865 :=
  ⟨redundant_wf, by decide +kernel, by decide +kernel⟩

private theorem nfaMoves_eq {n : Nfa} (h : n.WF) {as : List Arrow} (ha : nfaToArrows n = some as) : as.length = nfaMoves n := by
  rw [nfaToArrows_eq h] at ha
  cases ha
  rw [List.length_map, transOf_length, nfaMoves]
  congr 1
  refine List.map_congr_left (fun st hs => ?_)
  rw [nfaOut, List.length_append, List.length_map, List.length_flatMap]
  congr 2
  have e : (n.alphabet.zip st.transitions).map (fun y => (y.2.map (fun t => (t, y.1))).length) = ((n.alphabet.zip st.transitions).map Prod.snd).map List.length := by
    rw [List.map_map]
    exact List.map_congr_left (fun y _ => List.length_map _)
  rw [e, List.map_snd_zip (by rw [h.row_len st hs])]

private theorem nfaArrowsCost_eq {n : Nfa} (h : n.WF) : nfaArrowsCost n = n.states.length + n.states.length * n.alphabet.length + nfaMoves n := by
  have h1 : ∀ l : List NfaState, (∀ s ∈ l, s.transitions.length = n.alphabet.length) →
      (l.map (fun s => 1 + (s.transitions.map (fun tos => 1 + tos.length)).sum + s.epsilonTransitions.length)).sum =
        l.length + l.length * n.alphabet.length + (l.map (fun s => (s.transitions.map List.length).sum + s.epsilonTransitions.length)).sum := by
    intro l
    induction l with
    | nil => intro _; simp
    | cons s l ih =>
      intro hl
      have h1 := ih (fun x hx => hl x (List.mem_cons_of_mem _ hx))
      have h2 : (s.transitions.map (fun tos => 1 + tos.length)).sum = s.transitions.length + (s.transitions.map List.length).sum := sum_one_add _ _
      have h3 := hl s List.mem_cons_self
      simp only [List.map_cons, List.sum_cons, List.length_cons, h1, h2, h3, Nat.add_mul, Nat.one_mul]
      omega
  exact h1 n.states (fun s hs => h.row_len s hs)

/-- **C108** The same for NFAs. -/
theorem C108_nfa (o : Options) (ord : List GroupedArrow → List GroupedArrow) (ho : ∀ l, (ord l).Perm l) (n : Nfa) (h : n.WF) :
    drawNfaCost o ord n ≤ 4 * nfaMoves n ^ 2 + 17 * nfaMoves n + 11 * n.states.length + n.states.length * n.alphabet.length + 7 +
      labelChars (nfaLabels n) n.states.length := by
  obtain ⟨as, h1, h2⟩ := nfa_groups ord ho h
  have h3 := draw_le o ord ho (n.states.map State.ofNfa) as h2 (nfa_inside h)
  rw [drawNfaCost, nfaArrowsCost_eq h, h1]
  rw [nfaMoves_eq h h1, List.length_map] at h3
  dsimp only
  omega

example : epsNfa.WF ∧ drawNfaCost Options.default id epsNfa = 408 ∧ nfaMoves epsNfa = 13 ∧
    4 * 13 ^ 2 + 17 * 13 + 11 * 6 + 6 * 2 + 7 + labelChars (nfaLabels epsNfa) 6 = 997 :=
  ⟨epsNfa_wf, by decide +kernel, by decide +kernel, by decide +kernel⟩

private theorem dfaState_eq (states : List DfaState) : states.map State.ofDfa = states.map dfaState := rfl

private theorem nfaState_eq (states : List NfaState) : states.map State.ofNfa = states.map nfaState := rfl

/-- **C108** The ASCII picture of a valid DFA takes, besides reading the names, time at most proportional to the number of its arrows times the
width of the picture, the bytes of the labels and the number of transitions together; also if it fails. -/
theorem C108_dfa_art (ord : List GroupedArrow → List GroupedArrow) (ho : ∀ l, (ord l).Perm l) (d : Dfa) (h : d.WF) (w : Nat)
    (hw : Longest (d.states.map dfaState) w) :
    dfaArtCost ord d ≤ 3 * (d.states.map (fun s => bytes s.name)).sum + 12 * (((pairsWith (dfaLabels d) d.states.length).length + 1) *
      (lineWidth w d.states.length + labelSize (dfaLabels d) d.states.length + d.states.length * d.alphabet.length + 1)) := by
  obtain ⟨as, h1, h2⟩ := dfa_groups ord ho h
  have h3 := artCost_le ord ho (d.states.map State.ofDfa) as h2 (by rw [List.length_map]; exact dfa_inside h) hw
  obtain ⟨h4, h5⟩ := groups_sum h2 (dfa_inside h) bytes
  rw [dfaArtCost, dfaArrowsCost_eq h, h1]
  have h6 : (groupArrows ord as).map (fun g => RegexTree.byteLen g.written) = (groupArrows ord as).map (fun g => bytes g.written) := rfl
  have h7 : ((d.states.map State.ofDfa).map (fun s => RegexTree.byteLen s.name)).sum = (d.states.map (fun s => bytes s.name)).sum := by
    rw [List.map_map]; rfl
  rw [h7, h6, h5, h4, dfaArrows_length h h1, List.length_map] at h3
  rw [labelSize]
  dsimp only
  generalize ((pairsWith (dfaLabels d) d.states.length).map (fun x => bytes (List.intercalate c!", " (dfaLabels d x.1 x.2)))).sum = B at *
  have h8 : 2 * d.states.length ≤ lineWidth w d.states.length := by
    rw [lineWidth, Nat.add_mul]; omega
  generalize hX : lineWidth w d.states.length + B + d.states.length * d.alphabet.length + 1 = X at *
  have h9 : X ≤ ((pairsWith (dfaLabels d) d.states.length).length + 1) * X := Nat.le_mul_of_pos_left _ (by omega)
  omega

example : redundant.WF ∧ Longest (redundant.states.map dfaState) 1 ∧ dfaArtCost id redundant = 3033 ∧
    3 * 6 + 12 * (((pairsWith (dfaLabels redundant) 6).length + 1) * (lineWidth 1 6 + labelSize (dfaLabels redundant) 6 + 6 * 2 + 1)) = 12342 :=
  ⟨redundant_wf, by constructor <;> decide, by decide +kernel, by decide +kernel⟩

/-- **C108** The same for NFAs. -/
theorem C108_nfa_art (ord : List GroupedArrow → List GroupedArrow) (ho : ∀ l, (ord l).Perm l) (n : Nfa) (h : n.WF) (w : Nat)
    (hw : Longest (n.states.map nfaState) w) :
    nfaArtCost ord n ≤ 3 * (n.states.map (fun s => bytes s.name)).sum + n.states.length * n.alphabet.length +
      12 * (((pairsWith (nfaLabels n) n.states.length).length + 1) *
        (lineWidth w n.states.length + labelSize (nfaLabels n) n.states.length + nfaMoves n + 1)) := by
  obtain ⟨as, h1, h2⟩ := nfa_groups ord ho h
  have h3 := artCost_le ord ho (n.states.map State.ofNfa) as h2 (by rw [List.length_map]; exact nfa_inside h) hw
  obtain ⟨h4, h5⟩ := groups_sum h2 (nfa_inside h) bytes
  rw [nfaArtCost, nfaArrowsCost_eq h, h1]
  have h6 : (groupArrows ord as).map (fun g => RegexTree.byteLen g.written) = (groupArrows ord as).map (fun g => bytes g.written) := rfl
  have h7 : ((n.states.map State.ofNfa).map (fun s => RegexTree.byteLen s.name)).sum = (n.states.map (fun s => bytes s.name)).sum := by
    rw [List.map_map]; rfl
  rw [h7, h6, h5, h4, nfaMoves_eq h h1, List.length_map] at h3
  rw [labelSize]
  dsimp only
  generalize ((pairsWith (nfaLabels n) n.states.length).map (fun x => bytes (List.intercalate c!", " (nfaLabels n x.1 x.2)))).sum = B at *
  have h8 : 2 * n.states.length ≤ lineWidth w n.states.length := by
    rw [lineWidth, Nat.add_mul]; omega
  generalize hX : lineWidth w n.states.length + B + nfaMoves n + 1 = X at *
  have h9 : X ≤ ((pairsWith (nfaLabels n) n.states.length).length + 1) * X := Nat.le_mul_of_pos_left _ (by omega)
  omega

example : epsNfa.WF ∧ Longest (epsNfa.states.map nfaState) 1 ∧ nfaArtCost id epsNfa = 3347 ∧
    3 * 6 + 6 * 2 + 12 * (((pairsWith (nfaLabels epsNfa) 6).length + 1) * (lineWidth 1 6 + labelSize (nfaLabels epsNfa) 6 + 13 + 1)) = 13758 :=
  ⟨epsNfa_wf, by constructor <;> decide, by decide +kernel, by decide +kernel⟩

end Dandy
