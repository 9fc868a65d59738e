import Verif.Model.DrawCost
import Verif.Proofs.DrawLevels
import Verif.Proofs.DrawPicture
import Verif.Proofs.AlgCostNfa
import Mathlib.Tactic.Ring
import Mathlib.Tactic.Linarith
/-! # The work of drawing (for C108) -/

namespace Dandy
namespace Draw
open RegexTree (byteLen)

/-! ## Placing -/

section place
variable {α : Type} {left right : α → Nat}

theorem sum_deeper (depth : Nat) : ∀ rest : List (PlacedArrow α), (∀ p ∈ rest, depth + 1 ≤ p.level) →
    (rest.map (fun p => 3 * (p.level - depth) + 2)).sum = (rest.map (fun p => 3 * (p.level - (depth + 1)) + 2)).sum + 3 * rest.length
  | [], _ => rfl
  | p :: rest, h => by
    have ih := sum_deeper depth rest (fun p hp => h p (List.mem_cons_of_mem _ hp))
    have := h p List.mem_cons_self
    simp only [List.map_cons, List.sum_cons, List.length_cons, ih]
    omega

theorem sum_here (depth : Nat) : ∀ now : List (PlacedArrow α), (∀ p ∈ now, p.level = depth) →
    (now.map (fun p => 3 * (p.level - depth) + 2)).sum = 2 * now.length
  | [], _ => rfl
  | p :: now, h => by
    have ih := sum_here depth now (fun p hp => h p (List.mem_cons_of_mem _ hp))
    have := h p List.mem_cons_self
    simp only [List.map_cons, List.sum_cons, List.length_cons, ih]
    omega

theorem placeLoopCost_eq : ∀ (fuel depth : Nat) (unplaced : List α) (placed res : List (PlacedArrow α)) (levels : Nat),
    unplaced.Pairwise (fun x y => right y ≤ right x) → (∀ a ∈ unplaced, left a ≤ right a) →
    placeLoop left right fuel depth unplaced placed = some (res, levels) →
    ∃ rest, res = placed ++ rest ∧ rest.length = unplaced.length ∧ (∀ p ∈ rest, depth ≤ p.level) ∧ depth ≤ levels ∧
      placeLoopCost left right fuel depth unplaced = 1 + (levels - depth) + (rest.map (fun p => 3 * (p.level - depth) + 2)).sum
  | 0, _, _, _, _, _, _, _, h => by cases h
  | fuel + 1, depth, unplaced, placed, res, levels, hs, hl, h => by
    rw [placeLoop] at h
    split at h
    · rename_i he
      cases h
      refine ⟨[], by simp, ?_, by simp, Nat.le_refl _, ?_⟩
      · rw [List.isEmpty_iff.1 he]; rfl
      · simp only [placeLoopCost, he, ↓reduceIte, Nat.sub_self, List.map_nil, List.sum_nil]
    · rename_i he
      have hs' : unplaced.reverse.Pairwise (fun x y => right x ≤ right y) := List.pairwise_reverse.2 hs
      have hl' : ∀ a ∈ unplaced.reverse, left a ≤ right a := fun a ha => hl a (List.mem_reverse.1 ha)
      obtain ⟨e1, e2, e3, _, _⟩ := pass_spec depth unplaced.reverse 0 hs' hl'
      have hc : placeLoopCost left right (fuel + 1) depth unplaced = 1 + (2 * unplaced.length + (pass left right depth 0 unplaced.reverse).2.length +
          placeLoopCost left right fuel (depth + 1) (pass left right depth 0 unplaced.reverse).2.reverse) := by
        rw [placeLoopCost]
        simp only [he, Bool.false_eq_true, ↓reduceIte]
      rw [hc]
      clear hc
      generalize pass left right depth 0 unplaced.reverse = r at h e1 e2 e3
      obtain ⟨now, later⟩ := r
      dsimp only at h e1 e2 e3 ⊢
      obtain ⟨rest, g1, g2, g3, g4, g5⟩ := placeLoopCost_eq fuel (depth + 1) later.reverse (placed ++ now) res levels
        (List.pairwise_reverse.2 (hs'.sublist e2)) (fun a ha => hl' a (e2.subset (List.mem_reverse.1 ha))) h
      have hlen := e1.length_eq
      rw [List.length_append, List.length_map, List.length_reverse] at hlen
      rw [List.length_reverse] at g2
      refine ⟨now ++ rest, by rw [g1, List.append_assoc], by rw [List.length_append]; omega, ?_, by omega, ?_⟩
      · intro p hp
        rcases List.mem_append.1 hp with hp | hp
        · exact (e3 p hp).1.ge
        · have := g3 p hp; omega
      · rw [g5, List.map_append, List.sum_append, sum_deeper depth rest g3, sum_here depth now (fun p hp => (e3 p hp).1)]
        omega

/-- The work of placing, exactly. -/
theorem placeCost_eq (as : List α) (hl : ∀ a ∈ as, left a ≤ right a) {placed : List (PlacedArrow α)} {levels : Nat}
    (h : placeArrows left right as = some (placed, levels)) :
    placeCost left right as = sortCost as.length + 1 + levels + (placed.map (fun p => 3 * p.level + 2)).sum := by
  obtain ⟨rest, h1, _, _, _, h5⟩ := placeLoopCost_eq _ _ _ _ _ _ (sortArrows_sorted as)
    (fun a ha => hl a ((sortArrows_perm (right := right) as).mem_iff.1 ha)) h
  rw [List.nil_append] at h1
  subst h1
  rw [placeCost, h5]
  simp only [Nat.sub_zero]
  omega

theorem placeCost_le (as : List α) (hl : ∀ a ∈ as, left a ≤ right a) {placed : List (PlacedArrow α)} {levels : Nat}
    (h : placeArrows left right as = some (placed, levels)) :
    placeCost left right as ≤ sortCost as.length + 1 + levels + as.length * (3 * levels) := by
  obtain ⟨p, l, h1, h2⟩ := placeArrows_spec (left := left) (right := right) as hl
  rw [h1] at h
  cases h
  rw [placeCost_eq as hl h1]
  have h3 := Dfa.sum_map_le (l := placed) (f := fun p => 3 * p.level + 2) (B := 3 * levels) (fun p hp => by have := h2.below p hp; omega)
  have h4 := h2.each.length_eq
  rw [List.length_map] at h4
  rw [h4] at h3
  omega

end place

/-! ## Grouping -/

theorem addArrow_size (a : Arrow) : ∀ gs : List GroupedArrow, (addArrow a gs).length ≤ gs.length + 1 ∧
    ((addArrow a gs).map (fun g => g.labels.length)).sum = (gs.map (fun g => g.labels.length)).sum + 1
  | [] => by simp [addArrow]
  | g :: gs => by
    obtain ⟨h1, h2⟩ := addArrow_size a gs
    rw [addArrow]
    split
    · simp only [List.length_cons, List.map_cons, List.sum_cons, List.length_append, List.length_nil]
      omega
    · simp only [List.length_cons, List.map_cons, List.sum_cons, h2]
      omega

theorem fold_size (as : List Arrow) : ∀ gs : List GroupedArrow, (as.foldl (fun map a => addArrow a map) gs).length ≤ gs.length + as.length ∧
    ((as.foldl (fun map a => addArrow a map) gs).map (fun g => g.labels.length)).sum = (gs.map (fun g => g.labels.length)).sum + as.length := by
  induction as with
  | nil => intro gs; simp
  | cons a as ih =>
    intro gs
    obtain ⟨h1, h2⟩ := ih (addArrow a gs)
    obtain ⟨h3, h4⟩ := addArrow_size a gs
    rw [List.foldl_cons, List.length_cons, h2, h4]
    omega

theorem groupArrows_size (ord : List GroupedArrow → List GroupedArrow) (ho : ∀ l, (ord l).Perm l) (as : List Arrow) :
    (groupArrows ord as).length ≤ as.length ∧ ((groupArrows ord as).map (fun g => g.labels.length)).sum = as.length := by
  obtain ⟨h1, h2⟩ := fold_size as []
  have hp := ho (as.foldl (fun map a => addArrow a map) [])
  rw [groupArrows, hp.length_eq, (hp.map _).sum_nat, h2]
  simp only [List.length_nil, List.map_nil, List.sum_nil, Nat.zero_add] at h1 ⊢
  exact ⟨h1, trivial⟩

theorem sum_one_add {β : Type} (f : β → Nat) (l : List β) : (l.map (fun b => 1 + f b)).sum = l.length + (l.map f).sum := by
  induction l with
  | nil => rfl
  | cons b l ih => simp only [List.map_cons, List.sum_cons, List.length_cons, ih]; omega

theorem groupCost_eq (ord : List GroupedArrow → List GroupedArrow) (ho : ∀ l, (ord l).Perm l) (as : List Arrow) :
    groupCost ord as = 3 * as.length + (groupArrows ord as).length := by
  rw [groupCost, sum_one_add, (groupArrows_size ord ho as).2]
  omega

/-! ## Transitions -/

theorem sum_const {β : Type} {f : β → Nat} {c : Nat} (l : List β) (h : ∀ b ∈ l, f b = c) : (l.map f).sum = l.length * c := by
  induction l with
  | nil => simp
  | cons b l ih =>
    rw [List.map_cons, List.sum_cons, ih (fun x hx => h x (List.mem_cons_of_mem _ hx)), h b List.mem_cons_self, List.length_cons, Nat.add_mul, Nat.one_mul,
      Nat.add_comm]

theorem transOf_length {σ : Type} (f : σ → List (Nat × Str)) : ∀ (states : List σ) (k : Nat),
    (transOf f states k).length = (states.map (fun s => (f s).length)).sum
  | [], k => by simp [transOf]
  | s :: states, k => by
    have ih := transOf_length f states (k + 1)
    have e : transOf f (s :: states) k = (f s).map (fun y => (k, y)) ++ transOf f states (k + 1) := by
      simp [transOf, List.zipIdx_cons]
    rw [e, List.length_append, List.length_map, ih, List.map_cons, List.sum_cons]

theorem dfaArrows_length {d : Dfa} (h : d.WF) {as : List Arrow} (ha : dfaToArrows d = some as) :
    as.length = d.states.length * d.alphabet.length := by
  rw [dfaToArrows_eq h] at ha
  cases ha
  rw [List.length_map, transOf_length]
  have : ∀ s ∈ d.states, (dfaOut d.alphabet s).length = d.alphabet.length := fun s hs => by
    rw [dfaOut, List.length_map, List.length_zip, h.row_len s hs, Nat.min_self]
  exact sum_const _ this

theorem dfaArrowsCost_eq {d : Dfa} (h : d.WF) : dfaArrowsCost d = d.states.length + d.states.length * d.alphabet.length := by
  rw [dfaArrowsCost, sum_one_add, sum_const d.states (fun s hs => h.row_len s hs)]

/-! ## The calls of the drawer -/

theorem stateOps_length (o : Options) (levels idx : Nat) (s : State) : (stateOps o levels idx s).length ≤ 9 := by
  rw [stateOps]
  cases s.accepting <;> cases s.initial <;> simp

theorem arrowOps_length (o : Options) (levels : Nat) (a : PlacedArrow GroupedArrow) : (arrowOps o levels a).length ≤ 10 := by
  rw [arrowOps]
  cases o.middleArrow <;> cases o.endArrow <;> simp

theorem flatMap_length_le {β γ : Type} {f : β → List γ} {B : Nat} (l : List β) (h : ∀ b ∈ l, (f b).length ≤ B) : (l.flatMap f).length ≤ l.length * B := by
  rw [List.length_flatMap]
  exact Dfa.sum_map_le h

/-- The work of `draw`. -/
theorem drawCost_le (o : Options) (ord : List GroupedArrow → List GroupedArrow) (ho : ∀ l, (ord l).Perm l) (states : List State) (as : List Arrow)
    {ls : Nat → Nat → List Str} (hg : Groups ls (groupArrows ord as)) {placed : List (PlacedArrow GroupedArrow)} {levels : Nat}
    (h : layout ord as = some (placed, levels)) :
    drawCost o ord states as ≤ 3 * as.length + 11 * (groupArrows ord as).length + sortCost (groupArrows ord as).length + 7 + levels +
      (groupArrows ord as).length * (3 * levels) + 9 * states.length + ((groupArrows ord as).map (fun g => g.written.length)).sum := by
  have hl : ∀ g ∈ groupArrows ord as, g.left ≤ g.right := fun g hx => Oriented.le (hg.oriented g hx)
  obtain ⟨p, l, h1, h2⟩ := placeArrows_spec (left := GroupedArrow.left) (right := GroupedArrow.right) _ hl
  have hlay := h
  rw [layout, h1] at h
  cases h
  have h3 := placeCost_le _ hl h1
  rw [drawCost, hlay, layoutCost, groupCost_eq ord ho, draw, hlay]
  simp only [Option.bind_eq_bind, Option.bind_some, Option.pure_def, List.length_map, List.length_append, List.length_cons, List.length_nil]
  have h4 := flatMap_length_le (f := fun x : State × Nat => stateOps o levels x.2 x.1) states.zipIdx (fun x _ => stateOps_length o levels x.2 x.1)
  have h5 := flatMap_length_le (f := arrowOps o levels) placed (fun x _ => arrowOps_length o levels x)
  rw [List.length_zipIdx] at h4
  have h6 := h2.each.length_eq
  rw [List.length_map] at h6
  rw [h6] at h5
  have h7 : (placed.map (fun p => p.arrow.label.length)).sum = ((groupArrows ord as).map (fun g => g.written.length)).sum := by
    rw [← (h2.each.map (fun g => g.written.length)).sum_nat, List.map_map]
    rfl
  have h8 : (initOps o levels).length = 4 := rfl
  rw [h7, h8]
  simp only [← Nat.add_assoc]
  omega

/-! ## ASCII art -/

theorem setByte_ascii {line line' : Str} {x : Nat × Char} (h : setByte line x = some line') (hx : x.2.utf8Size = 1)
    (hl : ∀ c ∈ line, c.utf8Size = 1) : line'.length = line.length ∧ ∀ c ∈ line', c.utf8Size = 1 := by
  rw [setByte] at h
  split at h
  · cases h
    refine ⟨List.length_set, fun c hc => ?_⟩
    rcases List.mem_or_eq_of_mem_set hc with h | rfl
    · exact hl c h
    · exact hx
  · cases h

theorem setBytes_ascii (ws : List (Nat × Char)) (hw : ∀ x ∈ ws, x.2.utf8Size = 1) : ∀ (line line' : Str), (∀ c ∈ line, c.utf8Size = 1) →
    setBytes line ws = some line' → line'.length = line.length ∧ ∀ c ∈ line', c.utf8Size = 1 := by
  induction ws with
  | nil => intro line line' hl h; cases h; exact ⟨rfl, hl⟩
  | cons x ws ih =>
    intro line line' hl h
    rw [setBytes, List.foldlM_cons] at h
    obtain ⟨l1, h1, h2⟩ := Option.bind_eq_some_iff.1 h
    obtain ⟨h3, h4⟩ := setByte_ascii h1 (hw x List.mem_cons_self) hl
    obtain ⟨h5, h6⟩ := ih (fun y hy => hw y (List.mem_cons_of_mem _ hy)) l1 line' h4 h2
    exact ⟨h5.trans h3, h6⟩

theorem setBytes_append (a b : List (Nat × Char)) (line : Str) : setBytes line (a ++ b) = (setBytes line a).bind (fun l => setBytes l b) := by
  rw [setBytes, List.foldlM_append]
  rfl

theorem splitByte_bytes : ∀ (l : Str) (i : Nat) (p q : Str), splitByte l i = some (p, q) → byteLen p = i ∧ byteLen p + byteLen q = byteLen l
  | l, 0, p, q, h => by
    rw [splitByte] at h
    cases h
    simp [byteLen]
  | [], i + 1, p, q, h => by rw [splitByte] at h; cases h
  | c :: cs, i + 1, p, q, h => by
    rw [splitByte] at h
    split at h
    · rename_i hc
      obtain ⟨⟨p', q'⟩, h1, h2⟩ := Option.map_eq_some_iff.1 h
      cases h2
      obtain ⟨h3, h4⟩ := splitByte_bytes cs _ p' q' h1
      rw [byteLen_cons, byteLen_cons]
      dsimp only
      omega
    · cases h

theorem writeLabel_bytes {w : Nat} {bot bot' : Str} {g : GroupedArrow} (h : writeLabel w bot g = some bot') :
    byteLen bot' ≤ byteLen bot + byteLen g.label := by
  rw [writeLabel] at h
  split at h
  · obtain ⟨start, _, h⟩ := Option.bind_eq_some_iff.1 h
    rw [replaceRange] at h
    obtain ⟨⟨pre, x⟩, h1, h⟩ := Option.bind_eq_some_iff.1 h
    obtain ⟨⟨y, post⟩, h2, h⟩ := Option.bind_eq_some_iff.1 h
    obtain ⟨e1, e2⟩ := splitByte_bytes _ _ _ _ h1
    obtain ⟨e3, e4⟩ := splitByte_bytes _ _ _ _ h2
    cases h
    rw [byteLen_append, byteLen_append]
    omega
  · cases h
    omega

theorem writeLabelsCost_le (w : Nat) : ∀ (gs : List GroupedArrow) (bot : Str) (M : Nat),
    byteLen bot + (gs.map (fun g => byteLen g.label)).sum ≤ M →
    writeLabelsCost w gs bot ≤ gs.length * (1 + 2 * M) + 2 * (gs.map (fun g => byteLen g.label)).sum
  | [], _, _, _ => by simp [writeLabelsCost]
  | g :: gs, bot, M, h => by
    rw [List.map_cons, List.sum_cons] at h
    have e : (gs.length + 1) * (1 + 2 * M) = gs.length * (1 + 2 * M) + (1 + 2 * M) := by ring
    rw [writeLabelsCost, List.length_cons, List.map_cons, List.sum_cons, e]
    cases hb : writeLabel w bot g with
    | none => dsimp only; split <;> omega
    | some bot' =>
      have h2 := writeLabel_bytes hb
      have h1 := writeLabelsCost_le w gs bot' M (by omega)
      dsimp only
      split <;> omega

theorem foldlM_writeLabel_bytes (w : Nat) : ∀ (gs : List GroupedArrow) (bot bot' : Str), gs.foldlM (writeLabel w) bot = some bot' →
    byteLen bot' ≤ byteLen bot + (gs.map (fun g => byteLen g.label)).sum
  | [], _, _, h => by cases h; simp
  | g :: gs, bot, bot', h => by
    rw [List.foldlM_cons] at h
    obtain ⟨b, h1, h2⟩ := Option.bind_eq_some_iff.1 h
    have := writeLabel_bytes h1
    have := foldlM_writeLabel_bytes w gs b bot' h2
    rw [List.map_cons, List.sum_cons]
    omega

theorem topBytes_length {w n : Nat} {g : GroupedArrow} (h : g.Oriented) (hn : g.right < n) : (topBytes w g).length ≤ artWidth w n + 1 := by
  have h1 := Oriented.le h
  have h2 := col_lt w hn
  have h3 := col_mono w h1
  rw [topBytes_eq h, List.length_append, List.length_singleton, dashes, artWidth_eq, lineWidth]
  split <;> rw [List.length_map, List.length_range'] <;> simp only [enterCol, leaveCol] <;> omega

theorem topBytes_ascii {w : Nat} {g : GroupedArrow} : ∀ x ∈ topBytes w g, x.2.utf8Size = 1 := by
  intro x hx
  unfold topBytes at hx
  rcases List.mem_append.1 hx with h | h
  · obtain ⟨y, _, rfl⟩ := List.mem_map.1 h
    rfl
  · rw [List.mem_singleton] at h
    subst h
    cases g.direction <;> rfl

theorem blank_ascii (k : Nat) : ∀ c ∈ List.replicate k ' ', c.utf8Size = 1 := by
  intro c hc
  rw [List.eq_of_mem_replicate hc]
  rfl

theorem bars_ascii (bars : List Nat) : ∀ x ∈ bars.map (fun b => (b, '|')), x.2.utf8Size = 1 := by
  intro x hx
  obtain ⟨b, _, rfl⟩ := List.mem_map.1 hx
  rfl

theorem eraseDups_le (l : List Nat) : l.eraseDups.length ≤ l.length := by
  induction h : l.length using Nat.strong_induction_on generalizing l with
  | _ n ih =>
    cases l with
    | nil => simp
    | cons a l =>
      rw [List.eraseDups_cons, List.length_cons]
      have h1 := List.length_filter_le (fun b => !b == a) l
      have := ih _ (by rw [List.length_cons] at h; omega) (l.filter (fun b => !b == a)) rfl
      rw [List.length_cons] at h
      omega

/-- The labels on some levels. -/
def labelBytes (ps : List (PlacedArrow GroupedArrow)) : Nat := (ps.map (fun p => byteLen p.arrow.label)).sum

theorem labelBytes_split (l : Nat) : ∀ ps : List (PlacedArrow GroupedArrow),
    labelBytes (ps.filter (fun p => p.level < l + 1)) = labelBytes (ps.filter (fun p => p.level < l)) + labelBytes (ps.filter (fun p => p.level = l)) ∧
    ps.countP (fun p => p.level < l + 1) = ps.countP (fun p => p.level < l) + ps.countP (fun p => p.level = l)
  | [] => ⟨rfl, rfl⟩
  | p :: ps => by
    obtain ⟨h1, h2⟩ := labelBytes_split l ps
    simp only [List.filter_cons, List.countP_cons, decide_eq_true_eq]
    unfold labelBytes at h1 ⊢
    by_cases ha : p.level < l
    · simp only [ha, show p.level < l + 1 by omega, show ¬ p.level = l by omega, ↓reduceIte, List.map_cons, List.sum_cons]
      omega
    · by_cases hb : p.level = l
      · simp only [ha, show p.level < l + 1 by omega, hb, ↓reduceIte, List.map_cons, List.sum_cons]
        simp only [Nat.lt_irrefl, Nat.lt_succ_self, ↓reduceIte, List.map_cons, List.sum_cons]
        omega
      · simp only [ha, hb, show ¬ p.level < l + 1 by omega, ↓reduceIte]
        omega

theorem labelBytes_filter (P : PlacedArrow GroupedArrow → Bool) : ∀ ps : List (PlacedArrow GroupedArrow), labelBytes (ps.filter P) ≤ labelBytes ps
  | [] => Nat.le_refl _
  | p :: ps => by
    have := labelBytes_filter P ps
    unfold labelBytes at this ⊢
    rw [List.filter_cons]
    split <;> simp only [List.map_cons, List.sum_cons] <;> omega

theorem level_le (w n : Nat) (placed : List (PlacedArrow GroupedArrow)) (hp : Fine n placed) (level : Nat) (bars : List Nat) :
    levelCost w n placed level bars ≤ 2 * artWidth w n + 2 * bars.length + 2 * placed.length +
      placed.countP (fun p => p.level = level) * (3 * artWidth w n + 2 * labelBytes placed + 6) +
        2 * labelBytes (placed.filter (fun p => p.level = level)) ∧
    ∀ top bot bars', levelLines w n placed level bars = some (top, bot, bars') →
      byteLen top = artWidth w n ∧ byteLen bot ≤ artWidth w n + labelBytes (placed.filter (fun p => p.level = level)) ∧
      bars'.length = bars.length + 2 * placed.countP (fun p => p.level = level) := by
  have hlb : labelBytes (placed.filter (fun p => p.level = level)) ≤ labelBytes placed := labelBytes_filter _ _
  have hsum : (((placed.filter (fun a => a.level = level)).map (·.arrow)).map (fun g : GroupedArrow => byteLen g.label)).sum =
      labelBytes (placed.filter (fun p => p.level = level)) := by
    rw [labelBytes, List.map_map]
    rfl
  have hcount : ((placed.filter (fun a => a.level = level)).map (·.arrow)).length = placed.countP (fun p => p.level = level) := by
    rw [List.length_map, List.countP_eq_length_filter]
  have hrow := hp.row level
  constructor
  · rw [levelCost]
    generalize ((placed.filter (fun a => a.level = level)).map (·.arrow)) = here at hsum hcount hrow
    have h1 : (here.map (fun g => (topBytes w g).length + 4)).sum ≤ here.length * (artWidth w n + 5) :=
      Dfa.sum_map_le (fun g hg => by have := topBytes_length (w := w) (hrow.oriented g hg) (hrow.bound g hg); omega)
    have h3 := eraseDups_le bars
    have h2 : ∀ bot, setBytes (List.replicate (artWidth w n) ' ') ((bars ++ here.flatMap (barsOf w)).map (fun b => (b, '|'))) = some bot →
        writeLabelsCost w here bot ≤ here.length * (1 + 2 * (artWidth w n + labelBytes placed)) +
          2 * labelBytes (placed.filter (fun p => p.level = level)) := by
      intro bot hb
      obtain ⟨e1, e2⟩ := setBytes_ascii _ (bars_ascii _) _ _ (blank_ascii _) hb
      rw [← hsum]
      refine writeLabelsCost_le w here bot _ ?_
      rw [byteLen_ascii bot e2, e1, List.length_replicate, hsum]
      omega
    rw [← hcount]
    have e : here.length * (3 * artWidth w n + 2 * labelBytes placed + 6) =
      here.length * (artWidth w n + 5) + here.length * (1 + 2 * (artWidth w n + labelBytes placed)) := by ring
    rw [e]
    cases hb : setBytes (List.replicate (artWidth w n) ' ') ((bars ++ here.flatMap (barsOf w)).map (fun b => (b, '|'))) with
    | none => dsimp only; omega
    | some bot =>
      have := h2 bot hb
      dsimp only
      omega
  · intro top bot bars' h
    simp only [levelLines] at h
    generalize ((placed.filter (fun a => a.level = level)).map (·.arrow)) = here at hsum hcount hrow h
    obtain ⟨t1, h1, h⟩ := Option.bind_eq_some_iff.1 h
    obtain ⟨b1, h2, h⟩ := Option.bind_eq_some_iff.1 h
    obtain ⟨t2, h3, h⟩ := Option.bind_eq_some_iff.1 h
    obtain ⟨b2, h4, h⟩ := Option.bind_eq_some_iff.1 h
    obtain ⟨b3, h5, h⟩ := Option.bind_eq_some_iff.1 h
    cases h
    obtain ⟨e1, e2⟩ := setBytes_ascii _ (bars_ascii _) _ _ (blank_ascii _) h1
    obtain ⟨e3, e4⟩ := setBytes_ascii _ (bars_ascii _) _ _ (blank_ascii _) h2
    obtain ⟨e5, e6⟩ := setBytes_ascii _ (fun x hx => by
      obtain ⟨g, _, hx⟩ := List.mem_flatMap.1 hx
      exact topBytes_ascii x hx) _ _ e2 h3
    obtain ⟨e7, e8⟩ := setBytes_ascii _ (bars_ascii _) _ _ e4 h4
    have e9 := foldlM_writeLabel_bytes w here b2 bot h5
    rw [byteLen_ascii _ e8, e7, e3, List.length_replicate, hsum] at e9
    refine ⟨by rw [byteLen_ascii _ e6, e5, e1, List.length_replicate], e9, ?_⟩
    rw [List.length_append, List.length_flatMap, ← hcount]
    have : (here.map (fun g => (barsOf w g).length)).sum = 2 * here.length := by
      rw [sum_const (f := fun g => (barsOf w g).length) here (c := 2) (fun g _ => rfl), Nat.mul_comm]
    rw [this]

theorem artLinesCost_le (w n : Nat) (placed : List (PlacedArrow GroupedArrow)) (hp : Fine n placed) : ∀ (level : Nat) (bars : List Nat),
    bars.length + 2 * placed.countP (fun p => p.level < level) ≤ 2 * placed.length →
    artLinesCost w n placed level bars ≤ 1 + level * (4 * artWidth w n + 6 * placed.length + 2) +
      placed.countP (fun p => p.level < level) * (3 * artWidth w n + 2 * labelBytes placed + 6) +
        3 * labelBytes (placed.filter (fun p => p.level < level))
  | 0, bars, _ => by rw [artLinesCost]; omega
  | level + 1, bars, hb => by
    obtain ⟨h1, h2⟩ := level_le w n placed hp level bars
    obtain ⟨e1, e2⟩ := labelBytes_split level placed
    rw [e1, e2, artLinesCost, Nat.add_mul, Nat.add_mul, Nat.one_mul]
    rw [e2] at hb
    generalize hC : placed.countP (fun p => p.level = level) * (3 * artWidth w n + 2 * labelBytes placed + 6) = C at h1 ⊢
    cases hl : levelLines w n placed level bars with
    | none => dsimp only; omega
    | some x =>
      obtain ⟨top, bot, bars'⟩ := x
      obtain ⟨g1, g2, g3⟩ := h2 top bot bars' hl
      have ih := artLinesCost_le w n placed hp level bars' (by omega)
      simp only [← Nat.add_assoc]
      omega

theorem lastLine_bytes (w : Nat) (states : List State) :
    byteLen (lastLine w states) ≤ 3 + (states.map (fun s => byteLen s.name)).sum + (w + 7) * states.length := by
  have h : ∀ l : List State, byteLen ((l.map (stateText w)).flatten) ≤ (l.map (fun s => byteLen s.name)).sum + (w + 7) * l.length := by
    intro l
    induction l with
    | nil => simp [byteLen]
    | cons s l ih =>
      have h1 : byteLen (pad s.name w) ≤ byteLen s.name + w := by
        rw [pad]
        split
        · rw [byteLen_append, byteLen_ascii (List.replicate _ ' ') (blank_ascii _), List.length_replicate]; omega
        · omega
      have h2 : byteLen (stateText w s) = byteLen (pad s.name w) + 7 := by
        rw [stateText]
        split <;> rw [byteLen_append, byteLen_append]
        · have e1 : byteLen c!"(( " = 3 := by decide
          have e2 : byteLen c!" )) " = 4 := by decide
          omega
        · have e1 : byteLen c!"(  " = 3 := by decide
          have e2 : byteLen c!"  ) " = 4 := by decide
          omega
      rw [List.map_cons, List.flatten_cons, byteLen_append, List.map_cons, List.sum_cons, List.length_cons, Nat.mul_add, Nat.mul_one]
      omega
  rw [lastLine, byteLen_append]
  have := h states
  have e : byteLen c!"-> " = 3 := by decide
  omega

/-- The work of `ascii_art`. -/
theorem artCost_le (ord : List GroupedArrow → List GroupedArrow) (ho : ∀ l, (ord l).Perm l) (states : List State) (as : List Arrow)
    {ls : Nat → Nat → List Str} (hg : Groups ls (groupArrows ord as)) (hi : Inside states.length ls) {w : Nat} (hw : Longest states w) :
    artCost ord states as ≤ 3 * (states.map (fun s => byteLen s.name)).sum + 11 * (((groupArrows ord as).length + 1) *
      (lineWidth w states.length + ((groupArrows ord as).map (fun g => byteLen g.written)).sum + as.length + 1)) := by
  have hl : ∀ g ∈ groupArrows ord as, g.left ≤ g.right := fun g hx => Oriented.le (hg.oriented g hx)
  obtain ⟨placed, levels, h1, h2⟩ := layout_ok ord as hg
  have hne : states ≠ [] := by
    obtain ⟨⟨s, hs, _⟩, _⟩ := hw
    exact List.ne_nil_of_mem hs
  obtain ⟨w', h3, h4⟩ := widest_longest hne
  obtain rfl := hw.unique h4
  have hlen := h2.each.length_eq
  rw [List.length_map] at hlen
  have hlb : labelBytes placed = ((groupArrows ord as).map (fun g => byteLen g.written)).sum := by
    rw [← (h2.each.map (fun g => byteLen g.written)).sum_nat, List.map_map]
    rfl
  have hfilter : placed.countP (fun p => p.level < levels) = placed.length := List.countP_eq_length.2 (fun p hp => by simpa using h2.below p hp)
  have h5 := artLinesCost_le w states.length placed (groups_fine hg hi h2) levels [] (by rw [hfilter, List.length_nil, Nat.zero_add])
  have h6 := labelBytes_filter (fun p => p.level < levels) placed
  have h7 := placeCost_le _ hl h1
  have h8 := lastLine_bytes w states
  have h9 := Nfa.sortCost_le (Nat.le_refl (groupArrows ord as).length)
  have h10 := (groupArrows_size ord ho as).1
  have h11 : levels ≤ placed.length := by
    have e1 : List.range levels ⊆ placed.map (·.level) := fun l hl => by
      obtain ⟨p, hp, rfl⟩ := h2.used l (List.mem_range.1 hl)
      exact List.mem_map.2 ⟨p, hp, rfl⟩
    have e2 := (List.subperm_of_subset List.nodup_range e1).length_le
    rwa [List.length_range, List.length_map] at e2
  rw [hfilter, hlb, hlen, artWidth_eq] at h5
  rw [hlb] at h6
  rw [hlen] at h11
  rw [artCost, sum_one_add, layoutCost, groupCost_eq ord ho, h3, h1]
  dsimp only
  have h12 : states.length ≤ (w + 7) * states.length := Nat.le_mul_of_pos_left _ (by omega)
  have h13 : (w + 7) * states.length ≤ lineWidth w states.length := by rw [lineWidth]; omega
  generalize (groupArrows ord as).length = G at *
  generalize ((groupArrows ord as).map (fun g => byteLen g.written)).sum = B at *
  generalize lineWidth w states.length = W at *
  generalize (states.map (fun s => byteLen s.name)).sum = N at *
  generalize as.length = T at *
  have m1 : levels * (4 * W + 6 * G + 2) ≤ G * (4 * W + 6 * T + 2) := Nat.mul_le_mul h11 (by omega)
  have m2 : G * (3 * levels) ≤ G * (3 * T) := Nat.mul_le_mul_left _ (by omega)
  have m3 : G ^ 2 ≤ G * T := by rw [Nat.pow_two]; exact Nat.mul_le_mul_left _ h10
  have e1 : G * (4 * W + 6 * T + 2) = 4 * (G * W) + 6 * (G * T) + 2 * G := by ring
  have e2 : G * (3 * W + 2 * B + 6) = 3 * (G * W) + 2 * (G * B) + 6 * G := by ring
  have e3 : G * (3 * T) = 3 * (G * T) := by ring
  have e4 : (G + 1) * (W + B + T + 1) = G * W + G * B + G * T + G + W + B + T + 1 := by ring
  rw [e1] at m1
  rw [e2] at h5
  rw [e3] at m2
  rw [e4]
  simp only [← Nat.add_assoc]
  omega

end Draw
end Dandy
