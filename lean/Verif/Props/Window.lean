import Verif.Spec.Window
import Verif.Props.Backends
import Verif.Props.Tables
import Verif.Props.Validate
/-!
# C80: the window shows the DFA that was in the text area at the last click
-/

namespace Dandy
open Samples Draw TableText

/-! ## Reading -/

theorem Window.readDfa_iff {t : Str} {d : Dfa} : Window.readDfa t = some d ↔ Window.IsTable t d := by
  unfold Window.readDfa Window.IsTable
  constructor
  · intro h
    cases h1 : Fa.dfa t with
    | none => rw [h1] at h; cases h
    | some p =>
      rw [h1] at h
      cases h2 : Validate.dfa p with
      | error e => simp [h2] at h
      | ok d' =>
        simp only [Option.bind_eq_bind, Option.bind_some, h2, Option.some.injEq] at h
        subst h
        obtain ⟨h3, h4⟩ := dfa_ok h2
        exact ⟨p, fa_dfa_iff.1 h1, h3, h4⟩
  · rintro ⟨p, h1, h2, h3⟩
    obtain ⟨d', h4⟩ := dfa_total h2
    obtain rfl := h3.unique h2 (dfa_ok h4).2
    simp [fa_dfa_iff.2 h1, h4]

theorem Window.isTable_wf {t : Str} {d : Dfa} (h : Window.IsTable t d) : d.WF := by
  obtain ⟨p, _, h1, h2⟩ := h
  exact h2.wf h1

theorem Window.options_sensible : Window.options.Sensible := by
  constructor <;> decide +kernel

/-! ## Histories -/

namespace Window

theorem typed_nil {t : Str} : Typed t [] t := .start (by simp)

theorem Typed.frame {t u : Str} {fs : List Frame} (h : Typed t fs u) (f : Frame) : Typed t (fs ++ [f]) (f.edit.getD u) := by
  cases he : f.edit with
  | some v => exact .edited he (by simp)
  | none =>
    rw [Option.getD_none]
    cases h with
    | start h => exact .start (fun g hg => (List.mem_append.1 hg).elim (h g) (fun hg => by rw [List.mem_singleton.1 hg]; exact he))
    | @edited fs gs f' u h1 h2 =>
      rw [List.append_assoc, List.cons_append]
      exact .edited h1 (fun g hg => (List.mem_append.1 hg).elim (h2 g) (fun hg => by rw [List.mem_singleton.1 hg]; exact he))

theorem Submitted.frame {t u v : Str} {fs : List Frame} (h : Submitted t fs v) (hu : Typed t fs u) (f : Frame) :
    Submitted t (fs ++ [f]) (if f.clicked then f.edit.getD u else v) := by
  cases hc : f.clicked with
  | true => exact .clicked hc (by simp) (hu.frame f)
  | false =>
    rw [if_neg (by decide)]
    cases h with
    | start h => exact .start (fun g hg => (List.mem_append.1 hg).elim (h g) (fun hg => by rw [List.mem_singleton.1 hg]; exact hc))
    | @clicked fs gs f' u h1 h2 h3 =>
      rw [List.append_assoc, List.cons_append]
      exact .clicked h1 (fun g hg => (List.mem_append.1 hg).elim (h2 g) (fun hg => by rw [List.mem_singleton.1 hg]; exact hc)) h3

/-- One frame. -/
theorem frame_spec (s : State) (f : Frame) (ho : ∀ l, (f.ord l).Perm l) :
    ∃ ss, frame s f = some (⟨f.edit.getD s.dfa, if f.clicked then f.edit.getD s.dfa else s.dfaToRender⟩, ss) ∧
      (∀ d, IsTable (if f.clicked then f.edit.getD s.dfa else s.dfaToRender) d → Shows d ss) ∧
      ((¬ ∃ d, IsTable (if f.clicked then f.edit.getD s.dfa else s.dfaToRender) d) → ss = []) := by
  unfold frame
  dsimp only
  generalize (if f.clicked then f.edit.getD s.dfa else s.dfaToRender) = t
  cases h : readDfa t with
  | none =>
    refine ⟨[], rfl, fun d hd => ?_, fun _ => rfl⟩
    rw [readDfa_iff.2 hd] at h
    cases h
  | some d =>
    have hd := readDfa_iff.1 h
    obtain ⟨ops, gs, placed, levels, h1, h2, h3, h4, h5⟩ := C66_dfa_lines options f.ord ho d (isTable_wf hd)
    obtain ⟨ops', h6, h7⟩ := (C68_colours options f.ord ho (0, 255, 0)).1 d (isTable_wf hd)
    obtain rfl := Option.some.inj (h1.symm.trans h6)
    obtain ⟨ss, h8, h9⟩ := C68_egui [] ops
    refine ⟨ss, by simp only [h1, Option.bind_eq_bind, Option.bind_some]; rw [h8]; rfl, fun d' hd' => ?_, fun hn => absurd ⟨d, hd⟩ hn⟩
    obtain rfl := Option.some.inj (h.symm.trans (readDfa_iff.2 hd'))
    exact ⟨options, ops, gs, placed, levels, rfl, h2, h3, h5 options_sensible, h4, h9, h7⟩

theorem frames_cons (s : State) (f g : Frame) (fs : List Frame) :
    frames s (f :: g :: fs) = (frame s f).bind (fun x => frames x.1 (g :: fs)) := by
  conv => lhs; unfold frames
  rfl

theorem frames_spec (t : Str) : ∀ (fs : List Frame) (before : List Frame) (s : State), fs ≠ [] → (∀ f ∈ fs, ∀ l, (f.ord l).Perm l) →
    Typed t before s.dfa → Submitted t before s.dfaToRender →
    ∃ s' ss, frames s fs = some (s', ss) ∧ Typed t (before ++ fs) s'.dfa ∧ Submitted t (before ++ fs) s'.dfaToRender ∧
      (∀ d, IsTable s'.dfaToRender d → Shows d ss) ∧ ((¬ ∃ d, IsTable s'.dfaToRender d) → ss = []) := by
  intro fs
  induction fs with
  | nil => exact fun _ _ h => absurd rfl h
  | cons f fs ih =>
    intro before s _ ho ht hs
    obtain ⟨ss, h1, h2, h3⟩ := frame_spec s f (ho f List.mem_cons_self)
    cases fs with
    | nil => exact ⟨_, ss, h1, ht.frame f, hs.frame ht f, h2, h3⟩
    | cons g fs =>
      obtain ⟨s', ss', r1, r2, r3, r4⟩ := ih (before ++ [f])
        ⟨f.edit.getD s.dfa, if f.clicked then f.edit.getD s.dfa else s.dfaToRender⟩ (by simp) (fun x hx => ho x (List.mem_cons_of_mem _ hx))
        (ht.frame f) (hs.frame ht f)
      rw [List.append_assoc] at r2 r3
      refine ⟨s', ss', ?_, r2, r3, r4⟩
      rw [frames_cons, h1]
      exact r1

theorem Typed.unique {t u v : Str} {fs : List Frame} (h : Typed t fs u) (h' : Typed t fs v) : u = v := by
  have key : ∀ {fs : List Frame} {u : Str}, Typed t fs u → u = (fs.reverse.findSome? (·.edit)).getD t := by
    intro fs u h
    cases h with
    | start h =>
      have : fs.reverse.findSome? (·.edit) = none := List.findSome?_eq_none_iff.2 (fun x hx => h x (List.mem_reverse.1 hx))
      rw [this]; rfl
    | @edited fs gs f u h1 h2 =>
      have : gs.reverse.findSome? (·.edit) = none := List.findSome?_eq_none_iff.2 (fun x hx => h2 x (List.mem_reverse.1 hx))
      rw [List.reverse_append, List.findSome?_append, List.reverse_cons, List.findSome?_append, this]
      simp [h1]
  rw [key h, key h']

/-- The description of what is shown is unambiguous. -/
theorem Submitted.unique {t u v : Str} {fs : List Frame} (h : Submitted t fs u) (h' : Submitted t fs v) : u = v := by
  have split : ∀ {as bs cs ds : List Frame} {f g : Frame}, as ++ f :: bs = cs ++ g :: ds → f.clicked = true → g.clicked = true →
      (∀ x ∈ bs, x.clicked = false) → (∀ x ∈ ds, x.clicked = false) → as = cs ∧ f = g := by
    intro as
    induction as with
    | nil =>
      intro bs cs ds f g he hf hg hb hd
      cases cs with
      | nil => exact ⟨rfl, (List.cons.inj he).1⟩
      | cons c cs =>
        have hm : g ∈ bs := by rw [(List.cons.inj he).2]; simp
        rw [hb g hm] at hg
        cases hg
    | cons a as ih =>
      intro bs cs ds f g he hf hg hb hd
      cases cs with
      | nil =>
        have hm : f ∈ ds := by rw [← (List.cons.inj he).2]; simp
        rw [hd f hm] at hf
        cases hf
      | cons c cs =>
        obtain ⟨h1, h2⟩ := ih (List.cons.inj he).2 hf hg hb hd
        exact ⟨by rw [(List.cons.inj he).1, h1], h2⟩
  have none : ∀ {as bs : List Frame} {f : Frame}, f.clicked = true → ¬ ∀ x ∈ as ++ f :: bs, x.clicked = false := by
    intro as bs f hf hall
    rw [hall f (by simp)] at hf
    cases hf
  generalize hfs : fs = fs' at h'
  cases h with
  | start h =>
    cases h' with
    | start h' => rfl
    | clicked h1 h2 h3 => exact absurd (hfs ▸ h) (none h1)
  | clicked h1 h2 h3 =>
    cases h' with
    | start h' => exact absurd (hfs ▸ h') (none h1)
    | clicked h1' h2' h3' =>
      obtain ⟨rfl, rfl⟩ := split hfs h1 h1' h2 h2'
      exact h3.unique h3'

end Window

/-- The DFA of dandy-cli/tests/example.dfa. -/
def windowDfa : Dfa :=
  { alphabet := [s 'a', s 'b', s 'c'],
    states := [⟨c!"s₀", true, true, [1, 0, 2]⟩, ⟨c!"s₁", false, false, [2, 1, 1]⟩, ⟨c!"s₂", false, true, [2, 2, 2]⟩], initialState := 0 }

/-- The DFA of dandy-cli/tests/example2.dfa. -/
def windowDfa2 : Dfa :=
  { alphabet := [s 'a', s 'b', s 'c'],
    states := [⟨c!"x", true, true, [2, 0, 1]⟩, ⟨c!"y", false, true, [1, 1, 1]⟩, ⟨c!"z", false, false, [1, 3, 3]⟩,
      ⟨c!"a", false, false, [1, 2, 3]⟩], initialState := 0 }

/-- The NFA of dandy-cli/tests/example2.nfa. -/
def windowNfa2 : Nfa :=
  { alphabet := [s 'a', s 'b'],
    states := [⟨c!"s₀", true, false, [], [[1], [0, 2]]⟩, ⟨c!"s₁", false, false, [2], [[4], [3]]⟩, ⟨c!"s₂", false, false, [], [[1, 4], [3]]⟩,
      ⟨c!"s₃", false, false, [5], [[4, 5], []]⟩, ⟨c!"s₄", false, false, [3], [[], [5]]⟩, ⟨c!"s₅", false, true, [], [[5], [5]]⟩],
    initialState := 0 }

/-- Room for the labels of a small automaton. -/
theorem roomy_of_small {ls : Nat → Nat → List Str} {n w : Nat} (hin : ∀ i j, ls i j ≠ [] → i < n ∧ j < n)
    (h : ∀ i < n, ∀ j < n, i ≠ j → ls i j ≠ [] → (List.intercalate c!", " (ls i j)).length + w + 2 ≤ (w + 7) * (max i j - min i j)) :
    Roomy ls w := by
  intro i j hij hne
  obtain ⟨h1, h2⟩ := hin i j hne
  exact h i h1 j h2 hij hne

/-- **C80** Before the window opens two pictures are printed, without a panic, whatever the orders of hash maps; the text area then
has the table of the DFA of the example file, and this is the text to be drawn. -/
theorem C80_start (o1 o2 : Window.Order) (h1 : ∀ l, (o1 l).Perm l) (h2 : ∀ l, (o2 l).Perm l) :
    ∃ out s d art1 art2, Window.start o1 o2 = some (out, s) ∧ Window.IsTable Window.exampleFile d ∧ Window.IsTable s.dfa d ∧
      s.dfaToRender = s.dfa ∧ s.dfa = c!"       a  b  c \n→ * s₀ s₁ s₀ s₂ \n    s₁ s₂ s₁ s₁ \n  * s₂ s₂ s₂ s₂ " ∧
      out = art1 ++ ['\n'] ++ art2 ++ ['\n'] ∧
      (∃ d2, Window.IsTable Window.example2Dfa d2 ∧ ShownIn (dfaLabels d2) (d2.states.map dfaState) art1) ∧
      ∃ n2 p, NfaText p Window.example2Nfa ∧ p.Legal ∧ p.Describes n2 ∧ ShownIn (nfaLabels n2) (n2.states.map nfaState) art2 := by
  have r1 : Window.readDfa Window.exampleFile = some windowDfa := by decide +kernel
  have r2 : Window.readDfa Window.example2Dfa = some windowDfa2 := by decide +kernel
  have r3 : Window.readNfa Window.example2Nfa = some windowNfa2 := by decide +kernel
  have w2 : windowDfa2.WF := Dfa.wf_of_wfB (by decide)
  have w3 : windowNfa2.WF := Nfa.wf_of_wfB (by decide)
  have t1 : windowDfa.toTable = some c!"       a  b  c \n→ * s₀ s₁ s₀ s₂ \n    s₁ s₂ s₁ s₁ \n  * s₂ s₂ s₂ s₂ " := by decide +kernel
  obtain ⟨art1, a1, a2⟩ := C57_dfa_partial o1 h1 windowDfa2 w2 1 (longest_of (by decide))
    (roomy_of_small (dfa_inside w2) (by decide +kernel))
  obtain ⟨art2, b1, b2⟩ := C57_nfa_partial o2 h2 windowNfa2 w3 2 (longest_of (by decide))
    (roomy_of_small (nfa_inside w3) (by decide +kernel))
  obtain ⟨p, e1, e2⟩ : ∃ p, Fa.nfa Window.example2Nfa = some p ∧ Validate.nfa p = .ok windowNfa2 := by
    unfold Window.readNfa at r3
    cases h : Fa.nfa Window.example2Nfa with
    | none => rw [h] at r3; cases r3
    | some p =>
      rw [h] at r3
      cases h' : Validate.nfa p with
      | error e => simp [h'] at r3
      | ok n =>
        simp only [Option.bind_eq_bind, Option.bind_some, h', Option.some.injEq] at r3
        exact ⟨p, rfl, by rw [h', r3]⟩
  obtain ⟨n1, n2⟩ := nfa_ok e2
  refine ⟨art1 ++ ['\n'] ++ art2 ++ ['\n'], ⟨_, _⟩, windowDfa, art1, art2, ?_, Window.readDfa_iff.1 r1, Window.readDfa_iff.1 ?_, rfl, rfl, rfl,
    ⟨windowDfa2, Window.readDfa_iff.1 r2, a2⟩, windowNfa2, p, fa_nfa_iff.1 e1, n1, n2, b2⟩
  · unfold Window.start Window.testAsciiDraw Window.exampleDfa
    simp only [r1, r2, r3, a1, b1, t1, Option.bind_eq_bind, Option.bind_some]
    rfl
  · decide +kernel

/-- **C80** In every frame, after any edits and clicks, nothing panics, the area has the text of the last edit, and the shapes are exactly a
drawing of the DFA in the text submitted last: the text in the area at the last click (an edit in the frame of the click counts), or
the table of the example. If that text is not a table of a DFA nothing is drawn. -/
theorem C80_frames (o1 o2 : Window.Order) (h1 : ∀ l, (o1 l).Perm l) (h2 : ∀ l, (o2 l).Perm l) (fs : List Window.Frame) (hne : fs ≠ [])
    (ho : ∀ f ∈ fs, ∀ l, (f.ord l).Perm l) :
    ∃ out s₀ s ss t, Window.start o1 o2 = some (out, s₀) ∧ Window.frames s₀ fs = some (s, ss) ∧ Window.Typed s₀.dfa fs s.dfa ∧
      Window.Submitted s₀.dfa fs t ∧ (∀ d, Window.IsTable t d → Window.Shows d ss) ∧ ((¬ ∃ d, Window.IsTable t d) → ss = []) := by
  obtain ⟨out, s, d, _, _, e1, _, _, e4, _⟩ := C80_start o1 o2 h1 h2
  obtain ⟨s', ss, r1, r2, r3, r4, r5⟩ := Window.frames_spec s.dfa fs [] s hne ho Window.typed_nil (by rw [e4]; exact .start (by simp))
  exact ⟨out, s, s', ss, s'.dfaToRender, e1, r1, r2, r3, r4, r5⟩

/-- Frames: nothing happens; a text is typed; it is submitted; an illegal text is typed and submitted at once. -/
def someFrames : List Window.Frame :=
  [⟨none, false, id⟩, ⟨some c!"a\n→ * q q", false, List.reverse⟩, ⟨none, true, id⟩, ⟨some c!"a\n→ * q r", true, id⟩]

example : (∀ f ∈ someFrames, ∀ l, (f.ord l).Perm l) ∧
    -- the number of shapes: of the example with three states, the same, of the DFA with one state, none
    ((Window.start id List.reverse).bind (fun x => [1, 2, 3, 4].mapM (fun k => (Window.frames x.2 (someFrames.take k)).map (·.2.length)))) =
      some [62, 62, 17, 0] ∧
    Window.Submitted [] (someFrames.take 3) c!"a\n→ * q q" := by
  refine ⟨?_, by decide +kernel, ?_⟩
  · intro f hf l
    simp only [someFrames, List.mem_cons, List.not_mem_nil, or_false] at hf
    rcases hf with rfl | rfl | rfl | rfl
    · exact .refl l
    · exact l.reverse_perm
    · exact .refl l
    · exact .refl l
  · exact .clicked (fs := someFrames.take 2) (gs := []) rfl (by simp) (.edited (fs := someFrames.take 1) (gs := [someFrames[2]]) rfl (by simp [someFrames]))

/-! ## Instances of the theorems of this file -/

example := C80_start List.reverse id

end Dandy
