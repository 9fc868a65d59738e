import Verif.Proofs.DrawCanvas
import Verif.Props.NfaEvaluator
/-! # Properties of drawings: C55, C56, C57, C64, C65, C66 -/

namespace Dandy
open Draw
open Samples (s)

private theorem ofDfa_eq : State.ofDfa = dfaState := rfl

private theorem ofNfa_eq : State.ofNfa = nfaState := rfl

/-- **C55** Placing terminates and puts every arrow on exactly one level; all levels are used; on one level the arrows come from left to
right, do not overlap and share at most an end; and no arrow could be moved to a lower level. -/
theorem C55_place {α : Type} (left right : α → Nat) (as : List α) (hl : ∀ a ∈ as, left a ≤ right a) :
    ∃ placed levels, placeArrows left right as = some (placed, levels) ∧ Placement left right as placed levels :=
  placeArrows_spec as hl

example : placeArrows (α := Nat × Nat) (·.1) (·.2) [(0, 2), (0, 0), (0, 1), (1, 2), (0, 3), (1, 1)] = some
    ([⟨(0, 0), 0⟩, ⟨(1, 1), 0⟩, ⟨(0, 1), 1⟩, ⟨(1, 2), 1⟩, ⟨(0, 2), 2⟩, ⟨(0, 3), 3⟩], 4) := by decide +kernel

/-- **C55** There are at most as many levels as arrows. -/
theorem C55_levels {α : Type} (left right : α → Nat) (as : List α) (hl : ∀ a ∈ as, left a ≤ right a) (placed : List (PlacedArrow α))
    (levels : Nat) (h : placeArrows left right as = some (placed, levels)) : levels ≤ as.length := by
  obtain ⟨p, l, h1, h2⟩ := C55_place left right as hl
  rw [h1] at h
  cases h
  have h3 : List.range levels ⊆ placed.map (·.level) := by
    intro x hx
    obtain ⟨p, hp, h4⟩ := h2.used x (List.mem_range.1 hx)
    exact List.mem_map.2 ⟨p, hp, h4⟩
  have h4 := (List.nodup_range.subperm h3).length_le
  rw [List.length_range, List.length_map] at h4
  have h5 := h2.each.length_eq
  rw [List.length_map] at h5
  omega

/-- **C55** Only arrows that fit on no level together need several levels: if of any two arrows the one ending first lies before the other (and
each before the other if both end at the same state, which is impossible), there is only one level. -/
theorem C55_one_level {α : Type} (left right : α → Nat) (as : List α) (hl : ∀ a ∈ as, left a ≤ right a) (placed : List (PlacedArrow α))
    (levels : Nat) (h : placeArrows left right as = some (placed, levels))
    (hb : as.Pairwise (fun a b => (right a ≤ right b → Before (left a) (right a) (left b) (right b)) ∧
      (right b ≤ right a → Before (left b) (right b) (left a) (right a)))) : levels ≤ 1 := by
  obtain ⟨p, l, h1, h2⟩ := C55_place left right as hl
  rw [h1] at h
  cases h
  by_contra hc
  obtain ⟨q, hq, hq1⟩ := h2.used 1 (by omega)
  obtain ⟨p, hp, hp0, h3, h4⟩ := h2.tight q hq 0 (by omega)
  have hb' := (h2.each.pairwise_iff (fun h => ⟨h.2, h.1⟩)).2 hb
  rw [List.pairwise_map] at hb'
  have hne : p ≠ q := by
    rintro rfl
    omega
  have hsym : Std.Symm (fun p q : PlacedArrow α =>
      (right p.arrow ≤ right q.arrow → Before (left p.arrow) (right p.arrow) (left q.arrow) (right q.arrow)) ∧
      (right q.arrow ≤ right p.arrow → Before (left q.arrow) (right q.arrow) (left p.arrow) (right p.arrow))) :=
    ⟨fun _ _ h => ⟨h.2, h.1⟩⟩
  exact h4 ((hb'.forall hp hq hne).1 h3)

example : ∃ placed, placeArrows (α := Nat × Nat) (·.1) (·.2) [(4, 6), (0, 0), (2, 4), (1, 2)] = some (placed, 1) ∧
    [((4 : Nat), (6 : Nat)), (0, 0), (2, 4), (1, 2)].Pairwise (fun a b => (a.2 ≤ b.2 → Before a.1 a.2 b.1 b.2) ∧
      (b.2 ≤ a.2 → Before b.1 b.2 a.1 a.2)) :=
  ⟨[⟨(0, 0), 0⟩, ⟨(1, 2), 0⟩, ⟨(2, 4), 0⟩, ⟨(4, 6), 0⟩], by decide +kernel, by unfold Before; decide⟩

/-- **C56** For a valid DFA: one group for every pair of states with a transition, with exactly the elements of the transitions between
them in the order of the alphabet; whatever the iteration order of the hash map. -/
theorem C56_dfa (ord : List GroupedArrow → List GroupedArrow) (ho : ∀ l, (ord l).Perm l) (d : Dfa) (h : d.WF) :
    ∃ as, dfaToArrows d = some as ∧ Groups (dfaLabels d) (groupArrows ord as) :=
  dfa_groups ord ho h

example : (dfaToArrows Samples.redundant).map (fun as => (groupArrows List.reverse as).map (fun g => (g.source, g.target, g.labels))) = some
    [(5, 5, [c!"b"]), (5, 0, [c!"a"]), (4, 3, [c!"b"]), (4, 4, [c!"a"]), (3, 4, [c!"b"]), (3, 3, [c!"a"]), (2, 3, [c!"b"]), (2, 4, [c!"a"]),
      (1, 4, [c!"b"]), (1, 3, [c!"a"]), (0, 2, [c!"b"]), (0, 1, [c!"a"])] := by decide +kernel

/-- **C56** For a valid NFA likewise; epsilon moves are labelled `ε` and come last. -/
theorem C56_nfa (ord : List GroupedArrow → List GroupedArrow) (ho : ∀ l, (ord l).Perm l) (n : Nfa) (h : n.WF) :
    ∃ as, nfaToArrows n = some as ∧ Groups (nfaLabels n) (groupArrows ord as) :=
  nfa_groups ord ho h

example : (nfaToArrows Samples.epsNfa).map (fun as => (groupArrows id as).map (fun g => (g.source, g.target, g.labels))) = some
    [(0, 1, [c!"ε"]), (0, 2, [c!"ε"]), (1, 1, [c!"a", c!"b"]), (1, 3, [c!"a"]), (1, 4, [c!"ε"]), (2, 2, [c!"b"]), (3, 2, [c!"b"]),
      (3, 4, [c!"b"]), (4, 1, [c!"ε"]), (5, 5, [c!"a"]), (5, 0, [c!"b"]), (5, 3, [c!"ε"])] := by decide +kernel

/-- **C56** The labels of the groups determine the transitions: a DFA goes from `i` to `j` with `e` iff `e` is a label. -/
theorem C56_dfa_labels (d : Dfa) (h : d.WF) (i j : Nat) (e : Str) : e ∈ dfaLabels d i j ↔ d.Run i [e] j := by
  unfold dfaLabels
  constructor
  · intro he
    split at he
    · cases he
    · rename_i st hst
      obtain ⟨x, hx, rfl⟩ := List.mem_map.1 he
      rw [List.mem_filter, decide_eq_true_eq] at hx
      obtain ⟨k, hk⟩ := List.getElem?_of_mem hx.1
      rw [List.getElem?_zip_eq_some] at hk
      exact .cons hst hk.1 (hx.2 ▸ hk.2) (.nil _)
  · intro hr
    cases hr with
    | cons h1 h2 h3 h4 =>
      cases h4
      rw [h1]
      refine List.mem_map.2 ⟨(e, j), ?_, rfl⟩
      rw [List.mem_filter]
      exact ⟨List.mem_of_getElem? (List.getElem?_zip_eq_some.2 ⟨h2, h3⟩), by simp⟩

example : c!"b" ∈ dfaLabels Samples.redundant 4 3 := by decide

/-- The picture `art` shows states and labels: all pairs of states with a label are drawn as arrows, in rows without overlaps, above the
line of the states. -/
def ShownIn (ls : Nat → Nat → List Str) (states : List Draw.State) (art : Str) : Prop :=
  ∃ w gs placed levels, Longest states w ∧ Groups ls gs ∧ Placement GroupedArrow.left GroupedArrow.right gs placed levels ∧
    Picture w states placed levels art

/-- The labels between different states fit between them; `w` is the length of the longest name. -/
def Roomy (ls : Nat → Nat → List Str) (w : Nat) : Prop :=
  ∀ i j, i ≠ j → ls i j ≠ [] → (List.intercalate c!", " (ls i j)).length + w + 2 ≤ (w + 7) * (max i j - min i j)

/-- **C57, partial** If the labels between different states are short enough the picture of a valid DFA is produced and shows it.
Missing: labels that do not fit (see `C57_dfa_fails_iff`, `C57_dfa_false`). -/
theorem C57_dfa_partial (ord : List GroupedArrow → List GroupedArrow) (ho : ∀ l, (ord l).Perm l) (d : Dfa) (h : d.WF) (w : Nat)
    (hw : Longest (d.states.map dfaState) w) (hf : Roomy (dfaLabels d) w) :
    ∃ art, dfaAsciiArt ord d = some art ∧ ShownIn (dfaLabels d) (d.states.map dfaState) art := by
  obtain ⟨as, h1, h2⟩ := dfa_groups ord ho h
  obtain ⟨art, placed, levels, h3, h4, h5⟩ := asciiArt_fit ord (d.states.map dfaState) as h2 (by
    rw [List.length_map]; exact dfa_inside h) hw hf
  refine ⟨art, ?_, w, _, placed, levels, hw, h2, h4, h5⟩
  unfold dfaAsciiArt
  simp only [h1, ofDfa_eq, Option.bind_eq_bind, Option.bind_some, h3]

/-- **C57, partial** The same for NFAs. -/
theorem C57_nfa_partial (ord : List GroupedArrow → List GroupedArrow) (ho : ∀ l, (ord l).Perm l) (n : Nfa) (h : n.WF) (w : Nat)
    (hw : Longest (n.states.map nfaState) w) (hf : Roomy (nfaLabels n) w) :
    ∃ art, nfaAsciiArt ord n = some art ∧ ShownIn (nfaLabels n) (n.states.map nfaState) art := by
  obtain ⟨as, h1, h2⟩ := nfa_groups ord ho h
  obtain ⟨art, placed, levels, h3, h4, h5⟩ := asciiArt_fit ord (n.states.map nfaState) as h2 (by
    rw [List.length_map]; exact nfa_inside h) hw hf
  refine ⟨art, ?_, w, _, placed, levels, hw, h2, h4, h5⟩
  unfold nfaAsciiArt
  simp only [h1, ofNfa_eq, Option.bind_eq_bind, Option.bind_some, h3]

/-- The picture of `endsB`, which meets the conditions: the longest name has one character, and no label has more than 5. -/
theorem endsB_picture : dfaAsciiArt id Samples.endsB = some (
    c!"       -->----        \n" ++
    c!"       |a    |        \n" ++
    c!"       -----<-        \n" ++
    c!"       |b    |        \n" ++
    c!"     ->-     ->-      \n" ++
    c!"     | |     | |      \n" ++
    c!"-> (( y )) (  n  ) ") := by decide +kernel

theorem longest_of {states : List Draw.State} {w : Nat} (h : widest states = some w) : Longest states w := by
  have hne : states ≠ [] := by
    rintro rfl
    cases h
  obtain ⟨w', h1, h2⟩ := widest_longest hne
  rw [h1] at h
  cases h
  exact h2

/-- Short labels always fit. -/
theorem roomy_of_short {ls : Nat → Nat → List Str} (w : Nat) (h : ∀ i j, (List.intercalate c!", " (ls i j)).length ≤ 5) : Roomy ls w := by
  intro i j hij _
  have h1 := h i j
  have h2 : (w + 7) * 1 ≤ (w + 7) * (max i j - min i j) := Nat.mul_le_mul_left _ (by omega)
  omega

/-- Labels of a small DFA, for the examples. -/
theorem dfa_short {d : Dfa} {k : Nat} (h : ∀ st ∈ d.states, ∀ j, (List.intercalate c!", " (((d.alphabet.zip st.transitions).filter (fun x => x.2 = j)).map (·.1))).length ≤ k)
    (i j : Nat) : (List.intercalate c!", " (dfaLabels d i j)).length ≤ k := by
  unfold dfaLabels
  split
  · simp [List.intercalate]
  · rename_i st hst
    exact h st (List.mem_of_getElem? hst) j

example : ∃ art, dfaAsciiArt List.reverse Samples.endsB = some art ∧ ShownIn (dfaLabels Samples.endsB) (Samples.endsB.states.map dfaState) art := by
  refine C57_dfa_partial List.reverse (fun l => List.reverse_perm l) _ Samples.endsB_wf 1 (longest_of (by decide)) (roomy_of_short 1 (dfa_short ?_))
  intro st hst j
  simp only [Samples.endsB, List.mem_cons, List.not_mem_nil, or_false] at hst
  rcases hst with rfl | rfl <;>
  · by_cases h0 : 0 = j
    · subst h0; decide
    · by_cases h1 : 1 = j
      · subst h1; decide
      · simp [Samples.endsB, h0, h1, List.intercalate, List.filter_cons]

/-- `evenA` has labels for two elements; its initial state is the last one, although the picture has the arrow before the first one. -/
theorem evenA_picture : nfaAsciiArt id Samples.evenA = some (
    c!"       -------------<-        \n" ++
    c!"       |a            |        \n" ++
    c!"       -->----       |        \n" ++
    c!"       |b, a |       |        \n" ++
    c!"       -----<-       |        \n" ++
    c!"       |b, a |       |        \n" ++
    c!"-> (  1  ) (( 2 )) (  0  ) ") := by decide +kernel

/-- **C57** With elements of ASCII characters the DFA picture fails exactly if a label reaches over the right end of the picture: it can
have `(w + 7) * (n - i) - 2` characters if the further left of the two states is the `i`-th of `n`. -/
theorem C57_dfa_fails_iff (ord : List GroupedArrow → List GroupedArrow) (ho : ∀ l, (ord l).Perm l) (d : Dfa) (h : d.WF) (w : Nat)
    (hw : Longest (d.states.map dfaState) w) (ha : ∀ e ∈ d.alphabet, ∀ c ∈ e, c.utf8Size = 1) :
    dfaAsciiArt ord d = none ↔ ∃ i j, i ≠ j ∧ dfaLabels d i j ≠ [] ∧
      (w + 7) * (d.states.length - min i j) < (List.intercalate c!", " (dfaLabels d i j)).length + 2 := by
  obtain ⟨as, h1, h2⟩ := dfa_groups ord ho h
  have := asciiArt_ascii ord (d.states.map dfaState) as h2 (by rw [List.length_map]; exact dfa_inside h) hw (by
    intro i j e he
    refine ha e ?_
    unfold dfaLabels at he
    split at he
    · cases he
    · obtain ⟨x, hx, rfl⟩ := List.mem_map.1 he
      exact (List.of_mem_zip (List.mem_filter.1 hx).1).1)
  rw [List.length_map] at this
  rw [← this]
  unfold dfaAsciiArt
  simp only [h1, ofDfa_eq, Option.bind_eq_bind, Option.bind_some]

/-- **C57** The same for NFAs without epsilon moves (`ε` is not an ASCII character). -/
theorem C57_nfa_fails_iff (ord : List GroupedArrow → List GroupedArrow) (ho : ∀ l, (ord l).Perm l) (n : Nfa) (h : n.WF) (w : Nat)
    (hw : Longest (n.states.map nfaState) w) (ha : ∀ e ∈ n.alphabet, ∀ c ∈ e, c.utf8Size = 1)
    (he : ∀ st ∈ n.states, st.epsilonTransitions = []) :
    nfaAsciiArt ord n = none ↔ ∃ i j, i ≠ j ∧ nfaLabels n i j ≠ [] ∧
      (w + 7) * (n.states.length - min i j) < (List.intercalate c!", " (nfaLabels n i j)).length + 2 := by
  obtain ⟨as, h1, h2⟩ := nfa_groups ord ho h
  have := asciiArt_ascii ord (n.states.map nfaState) as h2 (by rw [List.length_map]; exact nfa_inside h) hw (by
    intro i j e hm
    refine ha e ?_
    unfold nfaLabels at hm
    split at hm
    · cases hm
    · rename_i st hst
      rw [he st (List.mem_of_getElem? hst)] at hm
      simp only [List.count_nil, List.replicate_zero, List.append_nil] at hm
      obtain ⟨x, hx, hm⟩ := List.mem_flatMap.1 hm
      rw [List.eq_of_mem_replicate hm]
      exact (List.of_mem_zip hx).1)
  rw [List.length_map] at this
  rw [← this]
  unfold nfaAsciiArt
  simp only [h1, ofNfa_eq, Option.bind_eq_bind, Option.bind_some]

/-- Six elements lead from the first to the second (and last) of two states, as they do in a DFA for `a|b|c|d|e|f`. -/
def sixLetters : Dfa :=
  { alphabet := [s 'a', s 'b', s 'c', s 'd', s 'e', s 'f'],
    states := [⟨s '0', true, false, [1, 1, 1, 1, 1, 1]⟩, ⟨s '1', false, true, [1, 1, 1, 1, 1, 1]⟩], initialState := 0 }

/-- **C57 does not hold** A valid DFA with two states whose picture panics, whatever the iteration order. -/
theorem C57_dfa_false (ord : List GroupedArrow → List GroupedArrow) (ho : ∀ l, (ord l).Perm l) :
    sixLetters.WF ∧ dfaAsciiArt ord sixLetters = none := by
  have hwf : sixLetters.WF := Dfa.wf_of_wfB (by decide)
  refine ⟨hwf, (C57_dfa_fails_iff ord ho sixLetters hwf 1 (longest_of (by decide)) (by decide)).2 ⟨0, 1, by decide, by decide, by decide⟩⟩

/-- Five letters have room. -/
example : (dfaAsciiArt id
    { alphabet := [s 'a', s 'b', s 'c', s 'd', s 'e'],
      states := [⟨s '0', true, false, [1, 1, 1, 1, 1]⟩, ⟨s '1', false, true, [1, 1, 1, 1, 1]⟩], initialState := 0 }).isSome = true := by
  decide +kernel

/-- A label whose ninth character has two bytes, and after it a short one. -/
def twoBytes (c : Char) : Nfa :=
  { alphabet := [c!"12345678" ++ [c], s 'b'],
    states := [⟨s 'x', true, false, [], [[1], []]⟩, ⟨s 'y', false, false, [], [[], [2]]⟩, ⟨s 'z', false, true, [], [[], []]⟩],
    initialState := 0 }

/-- **C57 does not hold** Another reason: with the letter `a` the labels stay within the picture, but with `ä` instead the end of the
replaced part falls inside a character. -/
theorem C57_nfa_false : (twoBytes 'a').WF ∧ (nfaAsciiArt id (twoBytes 'a')).isSome = true ∧
    (twoBytes 'ä').WF ∧ nfaAsciiArt id (twoBytes 'ä') = none :=
  ⟨Nfa.wf_of_wfB (by decide), by decide +kernel, Nfa.wf_of_wfB (by decide), by decide +kernel⟩

/-- **C64 does not hold** The picture depends on the iteration order of the hash map: even the number of lines differs (a line has 54
characters and its end, and 15 lines are drawn for one order, 13 for the other). -/
theorem C64_order_false : Samples.epsNfa.WF ∧
    ((nfaAsciiArt id Samples.epsNfa).map (fun a => a.count '\n')) = some 14 ∧
    ((nfaAsciiArt List.reverse Samples.epsNfa).map (fun a => a.count '\n')) = some 12 :=
  ⟨Samples.epsNfa_wf, by decide +kernel, by decide +kernel⟩

/-- The same states and transitions as `endsB`, but starting in the other state. -/
def startsY : Dfa :=
  { Samples.endsB with
    states := [⟨s 'y', true, true, [0, 1]⟩, ⟨s 'n', false, false, [0, 1]⟩], initialState := 0 }

/-- **C65 does not hold** The ASCII picture does not tell the initial state: these two have the same picture, for every order, but the
empty word is accepted by one of them only. -/
theorem C65_initial_false (ord : List GroupedArrow → List GroupedArrow) :
    Samples.endsB.WF ∧ startsY.WF ∧ dfaAsciiArt ord Samples.endsB = dfaAsciiArt ord startsY ∧
    ¬ Samples.endsB.Lang [] ∧ startsY.Lang [] := by
  refine ⟨Samples.endsB_wf, Dfa.wf_of_wfB (by decide), rfl, ?_, ?_⟩
  · rintro ⟨q, hr, st, h1, h2⟩
    cases hr
    cases h1
    cases h2
  · exact ⟨0, .nil _, _, rfl, rfl⟩

/-- One state with a loop for one of two elements. -/
def loopOn (k : Bool) : Nfa :=
  { alphabet := [s 'a', s 'b'], states := [⟨s 'x', true, true, [], if k then [[0], []] else [[], [0]]⟩], initialState := 0 }

/-- **C65 does not hold** Nor does it tell the elements on loops: these two have the same picture, but different languages. -/
theorem C65_loops_false (ord : List GroupedArrow → List GroupedArrow) (ho : ∀ l, (ord l).Perm l) (k : Bool) :
    (loopOn k).WF ∧ nfaAsciiArt ord (loopOn k) = some (c!"     ->-      \n" ++ c!"     | |      \n" ++ c!"-> (( x )) ") ∧
    ((loopOn k).Lang [s 'a'] ↔ k = true) := by
  have h1 : ∀ g : GroupedArrow, ord [g] = [g] := fun g => List.perm_singleton.1 (ho [g])
  refine ⟨by cases k <;> exact Nfa.wf_of_wfB (by decide), ?_, ?_⟩
  · cases k
    · have : nfaToArrows (loopOn false) = some [⟨0, 0, .spot, s 'b'⟩] := by decide +kernel
      unfold nfaAsciiArt
      simp only [this, Option.bind_eq_bind, Option.bind_some, asciiArt, layout, groupArrows, List.foldl_cons, List.foldl_nil, addArrow, h1]
      decide +kernel
    · have : nfaToArrows (loopOn true) = some [⟨0, 0, .spot, s 'a'⟩] := by decide +kernel
      unfold nfaAsciiArt
      simp only [this, Option.bind_eq_bind, Option.bind_some, asciiArt, layout, groupArrows, List.foldl_cons, List.foldl_nil, addArrow, h1]
      decide +kernel
  · rw [← Nfa.accepts_iff (by cases k <;> exact Nfa.wf_of_wfB (by decide))]
    cases k <;> decide +kernel

/-- The default sizes are sensible. -/
theorem default_sensible : Options.default.Sensible :=
  ⟨by decide, by decide, by decide, by decide, by decide, by decide, by decide, by decide, by decide +kernel⟩

/-- **C66** Drawing a valid DFA succeeds and draws it: all states with their names, accepting ones doubled, the initial one marked; for
every pair of states with transitions one arrow with all their elements; horizontal parts at the same height do not overlap. -/
theorem C66_dfa (o : Options) (hs : o.Sensible) (ord : List GroupedArrow → List GroupedArrow) (ho : ∀ l, (ord l).Perm l) (d : Dfa) (h : d.WF) :
    ∃ ops gs placed levels, drawDfa o ord d = some ops ∧ Groups (dfaLabels d) gs ∧
      Placement GroupedArrow.left GroupedArrow.right gs placed levels ∧ DrawnOn o (d.states.map dfaState) placed levels ops := by
  obtain ⟨as, h1, h2⟩ := dfa_groups ord ho h
  obtain ⟨placed, levels, h3, h4⟩ := layout_ok ord as h2
  refine ⟨_, _, placed, levels, ?_, h2, h4, drawnOn hs (d.states.map dfaState) h2.oriented h4⟩
  unfold drawDfa draw
  simp only [h1, h3, Option.bind_eq_bind, Option.bind_some]
  rfl

/-- **C66** The same for NFAs. -/
theorem C66_nfa (o : Options) (hs : o.Sensible) (ord : List GroupedArrow → List GroupedArrow) (ho : ∀ l, (ord l).Perm l) (n : Nfa) (h : n.WF) :
    ∃ ops gs placed levels, drawNfa o ord n = some ops ∧ Groups (nfaLabels n) gs ∧
      Placement GroupedArrow.left GroupedArrow.right gs placed levels ∧ DrawnOn o (n.states.map nfaState) placed levels ops := by
  obtain ⟨as, h1, h2⟩ := nfa_groups ord ho h
  obtain ⟨placed, levels, h3, h4⟩ := layout_ok ord as h2
  refine ⟨_, _, placed, levels, ?_, h2, h4, drawnOn hs (n.states.map nfaState) h2.oriented h4⟩
  unfold drawNfa draw
  simp only [h1, h3, Option.bind_eq_bind, Option.bind_some]
  rfl

example : ((drawDfa Options.default id Samples.endsB).map texts) = some
    [(⟨100, 140⟩, c!"y"), (⟨180, 140⟩, c!"n"), (⟨100, 60⟩, c!"b"), (⟨180, 60⟩, c!"a"), (⟨140, 35⟩, c!"b"), (⟨140, 10⟩, c!"a")] := by
  decide +kernel

example : ((drawDfa Options.default id Samples.endsB).map circles) = some
    [(⟨100, 140⟩, 30), (⟨100, 140⟩, 25), (⟨180, 140⟩, 30)] := by decide +kernel

/-- The pairs of states with labels. -/
def labelledPairs (ls : Nat → Nat → List Str) (n : Nat) : List (Nat × Nat) :=
  ((List.range n).flatMap (fun i => (List.range n).map (fun j => (i, j)))).filter (fun x => ls x.1 x.2 ≠ [])

theorem pairs_perm {ls : Nat → Nat → List Str} {n : Nat} {gs : List GroupedArrow} (hg : Groups ls gs) (hi : Inside n ls) :
    (gs.map (fun g => (g.source, g.target))).Perm (labelledPairs ls n) := by
  refine (List.perm_ext_iff_of_nodup ?_ ?_).2 ?_
  · rw [List.nodup_iff_pairwise_ne, List.pairwise_map]
    refine hg.once.imp ?_
    intro a b h e
    injection e with e1 e2
    exact h ⟨e1, e2⟩
  · refine List.Nodup.filter _ ?_
    exact List.Nodup.product List.nodup_range List.nodup_range
  · rintro ⟨i, j⟩
    simp only [labelledPairs, List.mem_map, List.mem_filter, List.mem_flatMap, List.mem_range, decide_eq_true_eq, Prod.mk.injEq]
    constructor
    · rintro ⟨g, hgm, rfl, rfl⟩
      obtain ⟨h1, h2⟩ := hg.labels g hgm
      rw [h1] at h2
      obtain ⟨h3, h4⟩ := hi _ _ h2
      exact ⟨⟨_, h3, _, h4, rfl, rfl⟩, h2⟩
    · rintro ⟨_, h⟩
      obtain ⟨g, hgm, h1, h2⟩ := hg.all i j h
      exact ⟨g, hgm, h1, h2⟩

/-- **C66** The texts in the drawing of a valid DFA are its state names and, for every pair of states with transitions, their elements
separated by commas; each exactly once. -/
theorem C66_dfa_texts (o : Options) (hs : o.Sensible) (ord : List GroupedArrow → List GroupedArrow) (ho : ∀ l, (ord l).Perm l) (d : Dfa)
    (h : d.WF) (ops : List Op) (hops : drawDfa o ord d = some ops) :
    ((texts ops).map (·.2)).Perm (d.states.map (·.name) ++
      (labelledPairs (dfaLabels d) d.states.length).map (fun x => List.intercalate c!", " (dfaLabels d x.1 x.2))) := by
  obtain ⟨ops', gs, placed, levels, h1, h2, h3, h4⟩ := C66_dfa o hs ord ho d h
  rw [hops] at h1
  cases h1
  rw [h4.texts, List.map_append, List.map_map, List.map_map]
  refine List.Perm.append (.of_eq ?_) ?_
  · have : (d.states.map dfaState).zipIdx.map (fun x => x.1.name) = d.states.map (·.name) := by
      rw [show (fun x : Draw.State × Nat => x.1.name) = Draw.State.name ∘ Prod.fst from rfl, ← List.map_map, List.zipIdx_map_fst, List.map_map]
      rfl
    exact this
  · have e1 : (placed.map (fun p => p.arrow.written)) = (placed.map (·.arrow)).map GroupedArrow.written := by
      rw [List.map_map]; rfl
    have e2 : gs.map GroupedArrow.written = (gs.map (fun g => (g.source, g.target))).map (fun x => List.intercalate c!", " (dfaLabels d x.1 x.2)) := by
      rw [List.map_map]
      refine List.map_congr_left ?_
      intro g hg
      show List.intercalate _ g.labels = _
      rw [(h2.labels g hg).1]
      rfl
    refine .trans (.of_eq e1) (.trans (h3.each.map _) (.trans (.of_eq e2) ((pairs_perm h2 (dfa_inside h)).map _)))

/-- **C66** The same for NFAs. -/
theorem C66_nfa_texts (o : Options) (hs : o.Sensible) (ord : List GroupedArrow → List GroupedArrow) (ho : ∀ l, (ord l).Perm l) (n : Nfa)
    (h : n.WF) (ops : List Op) (hops : drawNfa o ord n = some ops) :
    ((texts ops).map (·.2)).Perm (n.states.map (·.name) ++
      (labelledPairs (nfaLabels n) n.states.length).map (fun x => List.intercalate c!", " (nfaLabels n x.1 x.2))) := by
  obtain ⟨ops', gs, placed, levels, h1, h2, h3, h4⟩ := C66_nfa o hs ord ho n h
  rw [hops] at h1
  cases h1
  rw [h4.texts, List.map_append, List.map_map, List.map_map]
  refine List.Perm.append (.of_eq ?_) ?_
  · have : (n.states.map nfaState).zipIdx.map (fun x => x.1.name) = n.states.map (·.name) := by
      rw [show (fun x : Draw.State × Nat => x.1.name) = Draw.State.name ∘ Prod.fst from rfl, ← List.map_map, List.zipIdx_map_fst, List.map_map]
      rfl
    exact this
  · have e1 : (placed.map (fun p => p.arrow.written)) = (placed.map (·.arrow)).map GroupedArrow.written := by
      rw [List.map_map]; rfl
    have e2 : gs.map GroupedArrow.written = (gs.map (fun g => (g.source, g.target))).map (fun x => List.intercalate c!", " (nfaLabels n x.1 x.2)) := by
      rw [List.map_map]
      refine List.map_congr_left ?_
      intro g hg
      show List.intercalate _ g.labels = _
      rw [(h2.labels g hg).1]
      rfl
    refine .trans (.of_eq e1) (.trans (h3.each.map _) (.trans (.of_eq e2) ((pairs_perm h2 (nfa_inside h)).map _)))

example : labelledPairs (nfaLabels Samples.evenA) 3 = [(0, 1), (1, 0), (2, 0)] := by decide +kernel

/-- **C66 is not all one wants** There is also an arrow at the left of the first state, even if it is not the initial one (`endsB` starts in
its second state). -/
theorem C66_left_arrow (o : Options) (hs : o.Sensible) (ord : List GroupedArrow → List GroupedArrow) (ho : ∀ l, (ord l).Perm l) (d : Dfa)
    (h : d.WF) (ops : List Op) (hops : drawDfa o ord d = some ops) :
    ∃ levels, HasLine ops (o.onCanvas 0 (o.stateY levels)) (o.onCanvas o.initArrowLength (o.stateY levels)) ∧
      ∀ i st, d.states[i]? = some st → (Marked o levels i ops ↔ i = d.initialState) := by
  obtain ⟨as, h1, h2⟩ := dfa_groups ord ho h
  obtain ⟨placed, levels, h3, h4⟩ := layout_ok ord as h2
  have hd := drawnOn hs (d.states.map dfaState) h2.oriented h4
  unfold drawDfa draw at hops
  simp only [h1, h3, Option.bind_eq_bind, Option.bind_some] at hops
  cases hops
  refine ⟨levels, ?_, ?_⟩
  · refine (hasLine_place hs (rawOps o (d.states.map dfaState) placed levels) _ _ _ _).2 ⟨o.initArrowWidth, ?_⟩
    rw [← circleCenter_eq]
    simp [rawOps, initOps]
  · intro i st hi
    have := hd.initial i (dfaState st) (by rw [List.getElem?_map, hi]; rfl)
    exact this.trans (h.init_flag i st hi)

/-! ## Instances of the theorems of this file -/

example := C55_levels (α := Nat × Nat) (·.1) (·.2) [(0, 2), (0, 0), (0, 1)] (by decide) _ _ rfl
example := C66_dfa Options.default default_sensible List.reverse (fun l => List.reverse_perm l) Samples.endsB Samples.endsB_wf
example := C66_dfa_texts Options.default default_sensible List.reverse (fun l => List.reverse_perm l) Samples.endsB Samples.endsB_wf _
  (Option.some_get (show (drawDfa Options.default List.reverse Samples.endsB).isSome by decide +kernel)).symm
example := C66_left_arrow Options.default default_sensible List.reverse (fun l => List.reverse_perm l) Samples.endsB Samples.endsB_wf _
  (Option.some_get (show (drawDfa Options.default List.reverse Samples.endsB).isSome by decide +kernel)).symm
example := C55_one_level (α := Nat × Nat) (·.1) (·.2) [(4, 6), (0, 0), (2, 4), (1, 2)] (by decide) _ _ rfl (by unfold Before; decide)
example := C57_nfa_partial List.reverse (fun l => List.reverse_perm l) Samples.epsNfa Samples.epsNfa_wf 1 (longest_of (by decide))
example := C57_dfa_fails_iff List.reverse (fun l => List.reverse_perm l) Samples.endsB Samples.endsB_wf 1 (longest_of (by decide)) (by decide)
example := C57_nfa_fails_iff List.reverse (fun l => List.reverse_perm l) Samples.evenA Samples.evenA_wf 1 (longest_of (by decide)) (by decide)
  (by decide)

end Dandy
