import Verif.Spec.Unicode
import Verif.Spec.Graphemes
import Verif.Spec.RegexGrammar
/-! # Grapheme clusters: lemmas -/

namespace Dandy
namespace Unicode

variable {P : Table}

/-! ## The clusters read so far do not matter -/

theorem takeWhile_all {α : Type} {p : α → Bool} {l m : List α} (h : ∀ x ∈ l, p x = true) :
    (l ++ m).takeWhile p = l ++ m.takeWhile p := by
  induction l with
  | nil => rfl
  | cons a l ih =>
    rw [List.cons_append, List.takeWhile_cons, if_pos (h a (by simp)), ih (fun x hx => h x (by simp [hx]))]
    rfl

theorem dropWhile_all {α : Type} {p : α → Bool} {l m : List α} (h : ∀ x ∈ l, p x = true) :
    (l ++ m).dropWhile p = m.dropWhile p := by
  induction l with
  | nil => rfl
  | cons a l ih =>
    rw [List.cons_append, List.dropWhile_cons, if_pos (h a (by simp)), ih (fun x hx => h x (by simp [hx]))]

theorem while_some {α : Type} {p : α → Bool} {l m : List α} (h : ∃ x ∈ l, p x = false) :
    (l ++ m).takeWhile p = l.takeWhile p ∧ ((l ++ m).dropWhile p).head? = (l.dropWhile p).head? := by
  induction l with
  | nil => obtain ⟨x, hx, _⟩ := h; cases hx
  | cons a l ih =>
    rw [List.cons_append, List.takeWhile_cons, List.takeWhile_cons, List.dropWhile_cons, List.dropWhile_cons]
    cases ha : p a with
    | false => simp
    | true =>
      have : ∃ x ∈ l, p x = false := by
        obtain ⟨x, hx, hp⟩ := h
        rcases List.mem_cons.1 hx with rfl | hx
        · rw [ha] at hp; cases hp
        · exact ⟨x, hx, hp⟩
      obtain ⟨h1, h2⟩ := ih this
      simp [h1, h2]

theorem all_or_some {α : Type} (p : α → Bool) (l : List α) : (∀ x ∈ l, p x = true) ∨ ∃ x ∈ l, p x = false := by
  by_cases h : ∃ x ∈ l, p x = false
  · exact Or.inr h
  · refine Or.inl (fun x hx => ?_)
    by_contra hc
    exact h ⟨x, hx, by simpa using hc⟩

theorem pairRule_mark {x y : Gcb} (hy : y = .extend ∨ y = .zwj) : ¬ Hard x → pairRule x y = some true := by
  intro hx
  rcases hy with rfl | rfl <;> cases x <;> simp_all [pairRule, Hard]

theorem hard_of_break {o c0 : Char} {os : Str} (hb : keeps P (o :: os) c0 = false) (h : P.gcb c0 = .extend ∨ P.gcb c0 = .zwj) :
    Hard (P.gcb o) := by
  by_contra hc
  unfold keeps at hb
  dsimp only at hb
  rw [pairRule_mark h hc] at hb
  cases hb

theorem even_of_break {o c0 : Char} {os : Str} (hb : keeps P (o :: os) c0 = false) (h : P.gcb c0 = .ri) :
    ((o :: os).takeWhile (fun c => P.gcb c = .ri)).length % 2 = 0 := by
  by_cases ho : P.gcb o = .ri
  · unfold keeps at hb
    have : pairRule (P.gcb o) (P.gcb c0) = none := by rw [ho, h]; rfl
    dsimp only at hb
    rw [this, Option.getD_none, Bool.or_eq_false_iff] at hb
    have := hb.2
    unfold flag at this
    rw [h, decide_eq_true (rfl : Gcb.ri = Gcb.ri), Bool.true_and, decide_eq_false_iff_not] at this
    omega
  · rw [List.takeWhile_cons, if_neg (by simpa using ho)]
    rfl

theorem flag_local {older L : Str} {c0 d : Char} (hc : c0 ∈ L) (hb : keeps P older c0 = false) :
    flag P (L ++ older) d = flag P L d := by
  unfold flag
  congr 2
  rcases all_or_some (fun c => decide (P.gcb c = .ri)) L with h | h
  · have h0 : ((older.takeWhile (fun c => P.gcb c = .ri)).length) % 2 = 0 := by
      cases older with
      | nil => rfl
      | cons o os => exact even_of_break hb (by simpa using h c0 hc)
    have e : L.takeWhile (fun c => P.gcb c = .ri) = L := by
      have := takeWhile_all (m := []) h
      simpa using this
    rw [takeWhile_all h, e, List.length_append]
    have : (L.length + (older.takeWhile (fun c => P.gcb c = .ri)).length) % 2 = L.length % 2 := by omega
    rw [this]
  · rw [(while_some h).1]

theorem conjunct_local (hP : P.Consistent) {older L : Str} {c0 d : Char} (hc : c0 ∈ L) (hb : keeps P older c0 = false) :
    conjunct P (L ++ older) d = conjunct P L d := by
  unfold conjunct
  dsimp only
  rcases all_or_some (fun c => decide (P.incb c = .extend ∨ P.incb c = .linker)) L with h | h
  · have e2 : L.dropWhile (fun c => decide (P.incb c = .extend ∨ P.incb c = .linker)) = [] := by
      have := dropWhile_all (m := []) h
      simpa using this
    rw [dropWhile_all h, e2]
    cases older with
    | nil => simp
    | cons o os =>
      have hh := hard_of_break hb (hP.between c0 (by simpa using h c0 hc))
      have h1 : ¬ (P.incb o = .extend ∨ P.incb o = .linker) := by
        intro hx
        rcases hP.between o hx with hx | hx <;> rw [hx] at hh <;> simp [Hard] at hh
      have h2 : P.incb o ≠ .consonant := by
        intro hx
        rw [hP.consonant o hx] at hh
        simp [Hard] at hh
      rw [List.dropWhile_cons, if_neg (by simpa using h1)]
      simp [h2]
  · obtain ⟨h1, h2⟩ := while_some (m := older) h
    rw [h1, h2]

theorem emoji_local (hP : P.Consistent) {older L : Str} {c0 d : Char} (hc : c0 ∈ L) (hb : keeps P older c0 = false) :
    emoji P (L ++ older) d = emoji P L d := by
  cases L with
  | nil => cases hc
  | cons c R =>
    rw [List.cons_append]
    unfold emoji
    dsimp only
    by_cases hz : P.gcb c = .zwj
    · rcases all_or_some (fun c => decide (P.gcb c = .extend)) R with h | h
      · have e2 : R.dropWhile (fun c => decide (P.gcb c = .extend)) = [] := by
          have := dropWhile_all (m := []) h
          simpa using this
        rw [dropWhile_all h, e2]
        cases older with
        | nil => simp
        | cons o os =>
          have hh := hard_of_break hb (by
            rcases List.mem_cons.1 hc with rfl | hc
            · exact Or.inr hz
            · exact Or.inl (by simpa using h c0 hc))
          have h1 : P.gcb o ≠ .extend := by intro hx; rw [hx] at hh; simp [Hard] at hh
          have h2 : P.pict o = false := by
            by_contra hx
            rw [hP.pict o (by simpa using hx)] at hh
            simp [Hard] at hh
          rw [List.dropWhile_cons, if_neg (by simpa using h1)]
          simp [h2]
      · rw [(while_some (m := older) h).2]
    · simp [hz]

/-- Only the characters since the last boundary matter. -/
theorem keeps_local (hP : P.Consistent) {older L : Str} {c0 d : Char} (hc : c0 ∈ L) (hb : keeps P older c0 = false) :
    keeps P (L ++ older) d = keeps P L d := by
  have h1 := conjunct_local hP (d := d) hc hb
  have h2 := emoji_local hP (d := d) hc hb
  have h3 := flag_local (d := d) hc hb
  cases L with
  | nil => cases hc
  | cons c R =>
    rw [List.cons_append] at *
    unfold keeps
    dsimp only
    rw [h1, h2, h3]

/-! ## Clusters -/

/-- No boundary inside. -/
def Whole (P : Table) (g : Str) : Prop := g ≠ [] ∧ ∀ u d v, g = u ++ d :: v → u ≠ [] → keeps P u.reverse d = true

theorem whole_single (c : Char) : Whole P [c] := by
  refine ⟨by simp, fun u d v h hu => ?_⟩
  cases u with
  | nil => exact absurd rfl hu
  | cons a u => simp at h

theorem whole_snoc {g : Str} {d : Char} (hg : Whole P g) (h : keeps P g.reverse d = true) : Whole P (g ++ [d]) := by
  refine ⟨by simp, fun u e v he hu => ?_⟩
  rcases List.eq_nil_or_concat v with rfl | ⟨v', x, rfl⟩
  · obtain ⟨rfl, h2⟩ := List.append_inj' he rfl
    cases h2
    exact h
  · have he' : g ++ [d] = (u ++ e :: v') ++ [x] := by simpa using he
    obtain ⟨h1, _⟩ := List.append_inj' he' rfl
    exact hg.2 u e v' h1 hu

theorem segFrom_local (hP : P.Consistent) : ∀ (rest cur older : Str) (c0 : Char), c0 ∈ cur → keeps P older c0 = false →
    segFrom P (cur.reverse ++ older) cur rest = segFrom P cur.reverse cur rest
  | [], _, _, _, _, _ => rfl
  | d :: rest, cur, older, c0, hc, hb => by
    unfold segFrom
    have hne : cur ≠ [] := List.ne_nil_of_mem hc
    rw [keeps_local hP (List.mem_reverse.2 hc) hb]
    cases hk : keeps P cur.reverse d with
    | true =>
      simp only [if_true]
      have := segFrom_local hP rest (cur ++ [d]) older c0 (by simp [hc]) hb
      simpa using this
    | false =>
      simp only [Bool.false_eq_true, if_false, if_neg hne]
      congr 1
      have h1 := segFrom_local hP rest [d] (cur.reverse ++ older) d (by simp) (by rw [keeps_local hP (List.mem_reverse.2 hc) hb, hk])
      have h2 := segFrom_local hP rest [d] cur.reverse d (by simp) hk
      simp only [List.reverse_singleton, List.singleton_append] at h1 h2
      rw [h1, h2]

theorem graphemes_cons (d : Char) (rest : Str) : graphemes P (d :: rest) = segFrom P [d] [d] rest := by
  unfold graphemes
  rw [segFrom]
  simp [keeps]

theorem segFrom_break (hP : P.Consistent) {cur : Str} {d : Char} {rest : Str} (hne : cur ≠ []) (hk : keeps P cur.reverse d = false) :
    segFrom P cur.reverse cur (d :: rest) = cur :: graphemes P (d :: rest) := by
  rw [segFrom, if_neg (by simp [hk]), if_neg hne, graphemes_cons]
  congr 1
  have h2 := segFrom_local hP rest [d] cur.reverse d (by simp) hk
  simpa using h2

theorem segFrom_first (hP : P.Consistent) : ∀ (rest cur : Str), Whole P cur →
    ∃ x y, rest = x ++ y ∧ Whole P (cur ++ x) ∧ (∀ d ∈ y.head?, keeps P (cur ++ x).reverse d = false) ∧
      segFrom P cur.reverse cur rest = (cur ++ x) :: graphemes P y
  | [], cur, h => ⟨[], [], rfl, by simpa using h, by simp, by
      rw [segFrom, if_neg h.1]
      simp [graphemes, segFrom]⟩
  | d :: rest, cur, h => by
    cases hk : keeps P cur.reverse d with
    | true =>
      obtain ⟨x, y, h1, h2, h3, h4⟩ := segFrom_first hP rest (cur ++ [d]) (whole_snoc h hk)
      refine ⟨d :: x, y, by rw [h1]; rfl, by simpa using h2, by simpa using h3, ?_⟩
      rw [segFrom, if_pos hk]
      simpa using h4
    | false => exact ⟨[], d :: rest, rfl, by simpa using h, by simpa using hk, by rw [segFrom_break hP h.1 hk]; simp⟩

theorem graphemes_first (hP : P.Consistent) {t : Str} (ht : t ≠ []) :
    ∃ g y, t = g ++ y ∧ Whole P g ∧ (∀ d ∈ y.head?, keeps P g.reverse d = false) ∧ graphemes P t = g :: graphemes P y := by
  cases t with
  | nil => exact absurd rfl ht
  | cons d rest =>
    obtain ⟨x, y, h1, h2, h3, h4⟩ := segFrom_first hP rest [d] (whole_single d)
    refine ⟨[d] ++ x, y, by rw [h1]; rfl, h2, h3, ?_⟩
    rw [graphemes_cons]
    exact h4

/-- Clusters one after the other, with a boundary between any two neighbours. -/
inductive Good (P : Table) : List Str → Prop
  | nil : Good P []
  | cons (g : Str) (gs : List Str) : Whole P g → (∀ d ∈ gs.flatten.head?, keeps P g.reverse d = false) → Good P gs → Good P (g :: gs)

theorem graphemes_nil : graphemes P [] = [] := by simp [graphemes, segFrom]

theorem good_graphemes (hP : P.Consistent) (t : Str) : Good P (graphemes P t) ∧ (graphemes P t).flatten = t := by
  induction hn : t.length using Nat.strong_induction_on generalizing t with
  | _ n ih =>
    by_cases ht : t = []
    · subst ht
      rw [graphemes_nil]
      exact ⟨.nil, rfl⟩
    · obtain ⟨g, y, h1, h2, h3, h4⟩ := graphemes_first hP ht
      have hlt : y.length < n := by
        have := congrArg List.length h1
        have hg : 0 < g.length := List.length_pos_of_ne_nil h2.1
        rw [List.length_append] at this
        omega
      obtain ⟨i1, i2⟩ := ih _ hlt y rfl
      rw [h4]
      exact ⟨.cons _ _ h2 (by rw [i2]; exact h3) i1, by rw [List.flatten_cons, i2, ← h1]⟩

/-- A text is cut into clusters in one way only. -/
theorem good_unique (hP : P.Consistent) {gs : List Str} (h : Good P gs) : graphemes P gs.flatten = gs := by
  induction h with
  | nil => exact graphemes_nil
  | cons g gs hw hb _ ih =>
    have hne : (g :: gs).flatten ≠ [] := by
      rw [List.flatten_cons]
      exact List.append_ne_nil_of_left_ne_nil hw.1 _
    obtain ⟨g', y, h1, h2, h3, h4⟩ := graphemes_first hP hne
    rw [List.flatten_cons] at h1
    have hgy : g = g' ∧ gs.flatten = y := by
      rcases List.append_eq_append_iff.1 h1 with ⟨a, e1, e2⟩ | ⟨a, e1, e2⟩
      · cases a with
        | nil => simp at e1 e2; exact ⟨e1.symm, e2⟩
        | cons d a =>
          exfalso
          have := hb d (by rw [e2]; simp)
          rw [h2.2 g d a e1 hw.1] at this
          cases this
      · cases a with
        | nil => simp at e1 e2; exact ⟨e1, e2.symm⟩
        | cons d a =>
          exfalso
          have := h3 d (by rw [e2]; simp)
          rw [hw.2 g' d a e1 h2.1] at this
          cases this
    obtain ⟨rfl, rfl⟩ := hgy
    rw [h4, ih]

theorem good_single {g : Str} (h : Whole P g) : Good P [g] := .cons _ _ h (by simp) .nil

theorem Good.whole {gs : List Str} (h : Good P gs) : ∀ g ∈ gs, Whole P g := by
  induction h with
  | nil => intro g hg; cases hg
  | cons g gs hw _ _ ih =>
    intro x hx
    rcases List.mem_cons.1 hx with rfl | hx
    · exact hw
    · exact ih x hx

theorem whole_iff (hP : P.Consistent) {g : Str} : graphemes P g = [g] ↔ Whole P g := by
  constructor
  · intro h
    have := (good_graphemes hP g).1
    rw [h] at this
    exact this.whole g (by simp)
  · intro h
    have := good_unique hP (good_single h)
    simpa using this

theorem good_iff (hP : P.Consistent) {gs : List Str} : Good P gs ↔ graphemes P gs.flatten = gs := by
  constructor
  · exact good_unique hP
  · intro h
    rw [← h]
    exact (good_graphemes hP _).1

theorem clusters (hP : P.Consistent) : Clusters (graphemes P) where
  flatten t := (good_graphemes hP t).2
  nonempty t h := ((good_graphemes hP t).1.whole _ h).1 rfl
  single t g hg := (whole_iff hP).2 ((good_graphemes hP t).1.whole g hg)

theorem firstCluster_spec (hP : P.Consistent) : FirstCluster (firstCluster P) (graphemes P) := by
  intro t ht
  obtain ⟨g, y, h1, h2, h3, h4⟩ := graphemes_first hP ht
  unfold firstCluster
  rw [h4, h1]
  simp

theorem segmentation (hP : P.Consistent) : Segmentation (firstCluster P) where
  pos t ht := by
    obtain ⟨g, y, h1, h2, h3, h4⟩ := graphemes_first hP ht
    unfold firstCluster
    rw [h4]
    exact List.length_pos_of_ne_nil h2.1
  le t := by
    by_cases ht : t = []
    · subst ht; simp [firstCluster, graphemes_nil]
    · obtain ⟨g, y, h1, h2, h3, h4⟩ := graphemes_first hP ht
      unfold firstCluster
      rw [h4, h1]
      simp

/-! ## Pairs of neighbours -/

theorem good_pair {a b : Str} : Good P [a, b] ↔ Whole P a ∧ Whole P b ∧ ∀ d ∈ b.head?, keeps P a.reverse d = false := by
  constructor
  · intro h
    cases h with
    | cons _ _ h1 h2 h3 => exact ⟨h1, h3.whole b (by simp), by simpa using h2⟩
  · rintro ⟨h1, h2, h3⟩
    exact .cons _ _ h1 (by simpa using h3) (good_single h2)

theorem good_chain {gs : List Str} : Good P gs ↔ (∀ g ∈ gs, Whole P g) ∧ gs.IsChain (fun a b => Good P [a, b]) := by
  constructor
  · intro h
    refine ⟨h.whole, ?_⟩
    induction h with
    | nil => exact .nil
    | cons g gs hw hb hg ih =>
      cases gs with
      | nil => exact .singleton _
      | cons b gs =>
        refine List.isChain_cons_cons.2 ⟨good_pair.2 ⟨hw, hg.whole b (by simp), ?_⟩, ih⟩
        intro d hd
        refine hb d ?_
        have hb := (hg.whole b (by simp)).1
        cases b with
        | nil => exact absurd rfl hb
        | cons x b => simpa using hd
  · rintro ⟨h1, h2⟩
    induction gs with
    | nil => exact .nil
    | cons g gs ih =>
      cases gs with
      | nil => exact good_single (h1 g (by simp))
      | cons b gs =>
        obtain ⟨h3, h4⟩ := List.isChain_cons_cons.1 h2
        refine .cons _ _ (h1 g (by simp)) ?_ (ih (fun x hx => h1 x (by simp [hx])) h4)
        intro d hd
        refine (good_pair.1 h3).2.2 d ?_
        have hb := (h1 b (by simp)).1
        cases b with
        | nil => exact absurd rfl hb
        | cons x b => simpa using hd

/-! ## The rules of the standard -/

theorem ties_pair {u : Str} {c d : Char} (hc : ¬ Hard (P.gcb c)) (hd : ¬ Hard (P.gcb d))
    (h : pairRule (P.gcb c) (P.gcb d) = some true) : Ties P (u ++ [c]) d := by
  unfold pairRule at h
  unfold Hard at hc hd
  rw [if_neg (by rintro ⟨h1, -⟩; exact hc (by simp [h1])), if_neg hc, if_neg hd] at h
  split at h
  · rename_i h1; exact .gb6 _ _ _ h1.1 (by simpa using h1.2)
  · split at h
    · rename_i h1; exact .gb7 _ _ _ (by simpa using h1.1) (by simpa using h1.2)
    · split at h
      · rename_i h1; exact .gb8 _ _ _ (by simpa using h1.1) h1.2
      · split at h
        · rename_i h1
          rcases h1 with h1 | h1 | h1 | h1
          · exact .gb9 _ _ (by simp [h1])
          · exact .gb9 _ _ (by simp [h1])
          · exact .gb9a _ _ h1
          · exact .gb9b _ _ _ h1
        · cases h

theorem pairRule_ne_false {x y : Gcb} (hx : ¬ Hard x) (hy : ¬ Hard y) : pairRule x y ≠ some false := by
  cases x <;> cases y <;> simp_all [pairRule, Hard]

theorem while_split {α : Type} (p : α → Bool) (l : List α) : l = l.takeWhile p ++ l.dropWhile p := (List.takeWhile_append_dropWhile).symm

theorem mem_takeWhile {α : Type} {p : α → Bool} {l : List α} {x : α} (h : x ∈ l.takeWhile p) : p x = true := by
  induction l with
  | nil => cases h
  | cons a l ih =>
    rw [List.takeWhile_cons] at h
    split at h
    · rcases List.mem_cons.1 h with rfl | h
      · assumption
      · exact ih h
    · cases h

theorem head_dropWhile {α : Type} {p : α → Bool} {l : List α} {x : α} {r : List α} (h : l.dropWhile p = x :: r) : p x = false := by
  induction l with
  | nil => cases h
  | cons a l ih =>
    rw [List.dropWhile_cons] at h
    split at h
    · exact ih h
    · rename_i hn
      cases h
      simpa using hn

theorem conjunct_iff {u : Str} {d : Char} : conjunct P u.reverse d = true ↔ ∃ x m c, u = x ++ c :: m ∧ P.incb c = .consonant ∧
    (∀ x ∈ m, P.incb x = .extend ∨ P.incb x = .linker) ∧ (∃ x ∈ m, P.incb x = .linker) ∧ P.incb d = .consonant := by
  unfold conjunct
  dsimp only
  generalize hp : (fun c => decide (P.incb c = .extend ∨ P.incb c = .linker)) = p
  have hp' : ∀ c, p c = true ↔ P.incb c = .extend ∨ P.incb c = .linker := by intro c; rw [← hp]; simp
  rw [Bool.and_eq_true, Bool.and_eq_true, decide_eq_true_eq]
  constructor
  · rintro ⟨⟨h1, h2⟩, h3⟩
    cases hd : u.reverse.dropWhile p with
    | nil => rw [hd] at h3; cases h3
    | cons c r =>
      rw [hd] at h3
      refine ⟨r.reverse, (u.reverse.takeWhile p).reverse, c, ?_, by simpa using h3, ?_, ?_, h1⟩
      · have := while_split p u.reverse
        rw [hd] at this
        have := congrArg List.reverse this
        simpa using this
      · intro x hx
        exact (hp' x).1 (mem_takeWhile (List.mem_reverse.1 hx))
      · obtain ⟨x, hx, h⟩ := List.any_eq_true.1 h2
        exact ⟨x, List.mem_reverse.2 hx, by simpa using h⟩
  · rintro ⟨x, m, c, rfl, h1, h2, ⟨y, hy, h3⟩, h4⟩
    have hm : ∀ x ∈ m.reverse, p x = true := fun x hx => (hp' x).2 (h2 x (List.mem_reverse.1 hx))
    have hc : p c = false := by
      by_contra hc
      rcases (hp' c).1 (by simpa using hc) with h | h <;> rw [h1] at h <;> cases h
    have e : (x ++ c :: m).reverse = m.reverse ++ c :: x.reverse := by simp
    rw [e, takeWhile_all hm, dropWhile_all hm, List.takeWhile_cons, List.dropWhile_cons, if_neg (by simp [hc]), if_neg (by simp [hc])]
    refine ⟨⟨h4, ?_⟩, by simp [h1]⟩
    rw [List.append_nil]
    exact List.any_eq_true.2 ⟨y, List.mem_reverse.2 hy, by simpa using h3⟩

theorem emoji_iff {u : Str} {d : Char} (hP : ∀ c, P.pict c = true → P.gcb c ≠ .extend) :
    emoji P u.reverse d = true ↔ ∃ x m c z, u = x ++ c :: m ++ [z] ∧ P.pict c = true ∧
    (∀ x ∈ m, P.gcb x = .extend) ∧ P.gcb z = .zwj ∧ P.pict d = true := by
  rcases List.eq_nil_or_concat u with rfl | ⟨u, z, rfl⟩
  · constructor
    · intro h; cases h
    · rintro ⟨x, m, c, z, h, _⟩; simp at h
  · rw [List.concat_eq_append, List.reverse_append]
    unfold emoji
    simp only [List.reverse_singleton, List.singleton_append]
    generalize hp : (fun c => decide (P.gcb c = .extend)) = p
    have hp' : ∀ c, p c = true ↔ P.gcb c = .extend := by intro c; rw [← hp]; simp
    rw [Bool.and_eq_true, Bool.and_eq_true, decide_eq_true_eq]
    constructor
    · rintro ⟨⟨h1, h2⟩, h3⟩
      cases hd : u.reverse.dropWhile p with
      | nil => rw [hd] at h3; cases h3
      | cons c r =>
        rw [hd] at h3
        refine ⟨r.reverse, (u.reverse.takeWhile p).reverse, c, z, ?_, by simpa using h3, ?_, h2, h1⟩
        · have := while_split p u.reverse
          rw [hd] at this
          have := congrArg List.reverse this
          have e : u = r.reverse ++ c :: (List.takeWhile p u.reverse).reverse := by simpa using this
          exact congrArg (· ++ [z]) e
        · intro x hx
          exact (hp' x).1 (mem_takeWhile (List.mem_reverse.1 hx))
    · rintro ⟨x, m, c, z', h, h1, h2, h3, h4⟩
      obtain ⟨rfl, hz⟩ := List.append_inj' h rfl
      cases hz
      have hm : ∀ x ∈ m.reverse, p x = true := fun x hx => (hp' x).2 (h2 x (List.mem_reverse.1 hx))
      have hc : p c = false := by
        by_contra hc
        exact hP c h1 ((hp' c).1 (by simpa using hc))
      have e : (x ++ c :: m).reverse = m.reverse ++ c :: x.reverse := by simp
      rw [e, dropWhile_all hm, List.dropWhile_cons, if_neg (by simp [hc])]
      exact ⟨⟨h4, h3⟩, by simpa using h1⟩

theorem flag_iff {u : Str} {d : Char} : flag P u.reverse d = true ↔ P.gcb d = .ri ∧
    ((∀ x ∈ u, P.gcb x = .ri) ∧ u.length % 2 = 1 ∨
      ∃ x m c, u = x ++ c :: m ∧ P.gcb c ≠ .ri ∧ (∀ x ∈ m, P.gcb x = .ri) ∧ m.length % 2 = 1) := by
  unfold flag
  generalize hp : (fun c => decide (P.gcb c = .ri)) = p
  have hp' : ∀ c, p c = true ↔ P.gcb c = .ri := by intro c; rw [← hp]; simp
  rw [Bool.and_eq_true, decide_eq_true_eq, decide_eq_true_eq]
  apply and_congr_right
  intro _
  constructor
  · intro h
    cases hd : u.reverse.dropWhile p with
    | nil =>
      have e := while_split p u.reverse
      rw [hd, List.append_nil] at e
      refine Or.inl ⟨fun x hx => (hp' x).1 (mem_takeWhile (l := u.reverse) (by rw [← e]; exact List.mem_reverse.2 hx)), ?_⟩
      rw [← e] at h
      simpa using h
    | cons c r =>
      refine Or.inr ⟨r.reverse, (u.reverse.takeWhile p).reverse, c, ?_, ?_, ?_, by simpa using h⟩
      · have := while_split p u.reverse
        rw [hd] at this
        have := congrArg List.reverse this
        simpa using this
      · intro hc
        have := head_dropWhile hd
        rw [(hp' c).2 hc] at this
        cases this
      · intro x hx
        exact (hp' x).1 (mem_takeWhile (List.mem_reverse.1 hx))
  · rintro (⟨h1, h2⟩ | ⟨x, m, c, rfl, h1, h2, h3⟩)
    · have := takeWhile_all (p := p) (l := u.reverse) (m := []) (fun x hx => (hp' x).2 (h1 x (List.mem_reverse.1 hx)))
      rw [List.append_nil] at this
      rw [this]
      simpa using h2
    · have hm : ∀ x ∈ m.reverse, p x = true := fun x hx => (hp' x).2 (h2 x (List.mem_reverse.1 hx))
      have hc : ¬ p c = true := fun hc => h1 ((hp' c).1 hc)
      have e : (x ++ c :: m).reverse = m.reverse ++ c :: x.reverse := by simp
      rw [e, takeWhile_all hm, List.takeWhile_cons, if_neg hc]
      simpa using h3

theorem pairRule_of_ties {x y : Gcb} (hx : ¬ Hard x) (hy : ¬ Hard y)
    (h : x = .l ∧ (y = .l ∨ y = .v ∨ y = .lv ∨ y = .lvt) ∨ (x = .lv ∨ x = .v) ∧ (y = .v ∨ y = .t) ∨ (x = .lvt ∨ x = .t) ∧ y = .t ∨
      (y = .extend ∨ y = .zwj ∨ y = .spacingMark ∨ x = .prepend)) : pairRule x y = some true := by
  cases x <;> cases y <;> simp_all [pairRule, Hard]

/-- The model is the rules. -/
theorem keeps_iff (hP : P.Consistent) {u : Str} {d : Char} : keeps P u.reverse d = true ↔ Joined P u d := by
  have hpe : ∀ c, P.pict c = true → P.gcb c ≠ .extend := by intro c hc h; rw [hP.pict c hc] at h; cases h
  rcases List.eq_nil_or_concat u with rfl | ⟨u, c, rfl⟩
  · constructor
    · intro h; cases h
    · rintro (⟨x, c, h, _⟩ | ⟨⟨x, c, h, _⟩, _⟩) <;> simp at h
  · rw [List.concat_eq_append]
    have hk : keeps P (u ++ [c]).reverse d = (pairRule (P.gcb c) (P.gcb d)).getD
        (conjunct P (u ++ [c]).reverse d || emoji P (u ++ [c]).reverse d || flag P (u ++ [c]).reverse d) := by
      have e : (u ++ [c]).reverse = c :: u.reverse := by simp
      rw [e]; rfl
    rw [hk]
    have hlast : ∀ {x : Str} {c' : Char}, u ++ [c] = x ++ [c'] → c' = c := by
      intro x c' h
      obtain ⟨_, h⟩ := List.append_inj' h rfl
      cases h; rfl
    by_cases h3 : P.gcb c = .cr ∧ P.gcb d = .lf
    · rw [h3.1, h3.2]
      exact ⟨fun _ => Or.inl ⟨u, c, rfl, h3.1, h3.2⟩, fun _ => rfl⟩
    by_cases h4 : Hard (P.gcb c)
    · have : pairRule (P.gcb c) (P.gcb d) = some false := by
        unfold pairRule
        rw [if_neg h3, if_pos (by unfold Hard at h4; exact h4)]
      rw [this]
      constructor
      · intro h; cases h
      · rintro (⟨x, c', h, h5, h6⟩ | ⟨⟨x, c', h, h5⟩, _⟩)
        · rw [hlast h] at h5; exact absurd ⟨h5, h6⟩ h3
        · rw [hlast h] at h5; exact absurd h4 h5
    by_cases h5 : Hard (P.gcb d)
    · have : pairRule (P.gcb c) (P.gcb d) = some false := by
        unfold pairRule
        rw [if_neg h3, if_neg (by unfold Hard at h4; exact h4), if_pos (by unfold Hard at h5; exact h5)]
      rw [this]
      constructor
      · intro h; cases h
      · rintro (⟨x, c', h, h6, h7⟩ | ⟨_, h6, _⟩)
        · rw [hlast h] at h6; exact absurd ⟨h6, h7⟩ h3
        · exact absurd h5 h6
    have hj : Joined P (u ++ [c]) d ↔ Ties P (u ++ [c]) d := by
      constructor
      · rintro (⟨x, c', h, h6, h7⟩ | ⟨_, _, h⟩)
        · rw [hlast h] at h6; exact absurd ⟨h6, h7⟩ h3
        · exact h
      · exact fun h => Or.inr ⟨⟨u, c, rfl, h4⟩, h5, h⟩
    rw [hj]
    cases hr : pairRule (P.gcb c) (P.gcb d) with
    | some b =>
      cases b with
      | false => exact absurd hr (pairRule_ne_false h4 h5)
      | true => exact ⟨fun _ => ties_pair h4 h5 hr, fun _ => rfl⟩
    | none =>
      have hno : ∀ {q : Prop}, (pairRule (P.gcb c) (P.gcb d) = some true) → q := by intro q h; rw [hr] at h; cases h
      rw [Option.getD_none, Bool.or_eq_true, Bool.or_eq_true, conjunct_iff, emoji_iff hpe, flag_iff]
      constructor
      · rintro ((⟨x, m, c', h1, h2, h6, h7, h8⟩ | ⟨x, m, c', z, h1, h2, h6, h7, h8⟩) | ⟨h1, ⟨h2, h6⟩ | ⟨x, m, c', h2, h6, h7, h8⟩⟩)
        · rw [h1]; exact .gb9c _ _ _ _ h2 h6 h7 h8
        · rw [h1]; exact .gb11 _ _ _ _ _ h2 h6 h7 h8
        · exact .gb12 _ _ h2 h6 h1
        · rw [h2]; exact .gb13 _ _ _ _ h6 h7 h8 h1
      · intro h
        generalize hu : u ++ [c] = w at h
        cases h with
        | gb6 x c' d h1 h2 => rw [hlast hu] at h1; exact hno (pairRule_of_ties h4 h5 (Or.inl ⟨h1, by simpa using h2⟩))
        | gb7 x c' d h1 h2 =>
          rw [hlast hu] at h1; exact hno (pairRule_of_ties h4 h5 (Or.inr (Or.inl ⟨by simpa using h1, by simpa using h2⟩)))
        | gb8 x c' d h1 h2 =>
          rw [hlast hu] at h1; exact hno (pairRule_of_ties h4 h5 (Or.inr (Or.inr (Or.inl ⟨by simpa using h1, h2⟩))))
        | gb9 _ _ h1 =>
          refine hno (pairRule_of_ties h4 h5 (Or.inr (Or.inr (Or.inr ?_))))
          simp only [List.mem_cons, List.not_mem_nil, or_false] at h1
          rcases h1 with h1 | h1 <;> simp [h1]
        | gb9a _ _ h1 => exact hno (pairRule_of_ties h4 h5 (Or.inr (Or.inr (Or.inr (by simp [h1])))))
        | gb9b x c' d h1 => rw [hlast hu] at h1; exact hno (pairRule_of_ties h4 h5 (Or.inr (Or.inr (Or.inr (by simp [h1])))))
        | gb9c x m c' d h1 h2 h3 h6 => exact Or.inl (Or.inl ⟨x, m, c', rfl, h1, h2, h3, h6⟩)
        | gb11 x m c' z d h1 h2 h3 h6 => exact Or.inl (Or.inr ⟨x, m, c', z, rfl, h1, h2, h3, h6⟩)
        | gb12 m d h1 h2 h3 => exact Or.inr ⟨h3, Or.inl ⟨h1, h2⟩⟩
        | gb13 x m c' d h1 h2 h3 h6 => exact Or.inr ⟨h6, Or.inr ⟨x, m, c', rfl, h1, h2, h3⟩⟩

theorem Good.tail {a b : List Str} (h : Good P (a ++ b)) : Good P b := by
  induction a with
  | nil => exact h
  | cons g a ih => cases h with | cons _ _ _ _ h3 => exact ih h3

theorem Good.boundary (hP : P.Consistent) : ∀ (a : List Str) {b : List Str}, Good P (a ++ b) → ∀ d ∈ b.flatten.head?,
    keeps P a.flatten.reverse d = false := by
  intro a
  induction a using List.reverseRecOn with
  | nil => intro b _ d _; rfl
  | append_singleton a g ih =>
    intro b h d hd
    have h' : Good P (a ++ g :: b) := by simpa using h
    have hg := h'.tail
    cases hg with
    | cons _ _ h1 h2 _ =>
      cases hgc : g with
      | nil => exact absurd hgc h1.1
      | cons c0 g' =>
        have hb := ih h' c0 (by rw [List.flatten_cons, hgc]; simp)
        have e : (a ++ [c0 :: g']).flatten.reverse = (c0 :: g').reverse ++ a.flatten.reverse := by simp
        rw [e, keeps_local hP (c0 := c0) (by simp) hb, ← hgc]
        exact h2 d hd

theorem Good.inside (hP : P.Consistent) {a b : List Str} {x y : Str} {d : Char} (h : Good P (a ++ (x ++ d :: y) :: b)) (hx : x ≠ []) :
    keeps P (a.flatten ++ x).reverse d = true := by
  have hw := h.whole (x ++ d :: y) (by simp)
  cases x with
  | nil => exact absurd rfl hx
  | cons c0 x =>
    have hb := h.boundary hP a c0 (by simp)
    rw [List.reverse_append, keeps_local hP (c0 := c0) (by simp) hb]
    exact hw.2 _ _ _ rfl hx

/-- Where a position of the text lies. -/
theorem locate : ∀ (gs : List Str) {u : Str} {d : Char} {v : Str}, gs.flatten = u ++ d :: v →
    ∃ a b x y, gs = a ++ (x ++ d :: y) :: b ∧ u = a.flatten ++ x
  | [], u, d, v, h => by simp at h
  | g :: gs, u, d, v, h => by
    rw [List.flatten_cons] at h
    rcases List.append_eq_append_iff.1 h with ⟨a, e1, e2⟩ | ⟨a, e1, e2⟩
    · obtain ⟨a', b, x, y, h1, h2⟩ := locate gs e2
      exact ⟨g :: a', b, x, y, by rw [h1]; rfl, by rw [e1, h2]; simp⟩
    · cases a with
      | nil =>
        simp at e1 e2
        obtain ⟨a', b, x, y, h1, h2⟩ := locate gs (u := []) (d := d) (v := v) (by simpa using e2.symm)
        exact ⟨g :: a', b, x, y, by rw [h1]; rfl, by rw [← e1, List.flatten_cons, List.append_assoc, ← h2]; simp⟩
      | cons c a =>
        simp only [List.cons_append, List.cons.injEq] at e2
        obtain ⟨rfl, _⟩ := e2
        exact ⟨[], gs, u, a, by rw [e1]; rfl, by simp⟩

theorem split_of_good (hP : P.Consistent) {gs : List Str} (h : Good P gs) : SplitByRules P gs.flatten gs where
  flatten := rfl
  nonempty hn := (h.whole _ hn).1 rfl
  bounds u d v ht hu := by
    rw [← keeps_iff hP]
    constructor
    · rintro ⟨a, b, rfl, rfl⟩
      rw [h.boundary hP a d (by
        rw [List.flatten_append] at ht
        rw [List.append_cancel_left ht]; simp)]
      simp
    · intro hk
      obtain ⟨a, b, x, y, h1, h2⟩ := locate gs ht
      by_cases hx : x = []
      · subst hx
        exact ⟨a, _, h1, by simpa using h2.symm⟩
      · exfalso
        rw [h1] at h
        rw [h2] at hk
        exact hk (h.inside hP hx)

theorem good_of_split (hP : P.Consistent) {t : Str} {gs : List Str} (h : SplitByRules P t gs) : Good P gs := by
  have hne : ∀ g ∈ gs, g ≠ [] := fun g hg e => h.nonempty (e ▸ hg)
  -- a boundary of the rules before each cluster
  have hb : ∀ (a b : List Str), gs = a ++ b → ∀ d ∈ b.flatten.head?, keeps P a.flatten.reverse d = false := by
    intro a b e d hd
    by_cases ha : a.flatten = []
    · rw [ha]; rfl
    · cases hbf : b.flatten with
      | nil => rw [hbf] at hd; cases hd
      | cons d' v =>
        rw [hbf] at hd
        cases hd
        have := (h.bounds a.flatten d v (by rw [← h.flatten, e, List.flatten_append, hbf]) ha).1 ⟨a, b, e, rfl⟩
        rw [← keeps_iff hP] at this
        simpa using this
  have key : ∀ (a b : List Str), gs = a ++ b → Good P b := by
    intro a b
    induction b generalizing a with
    | nil => intro _; exact .nil
    | cons g b ih =>
      intro e
      have hg0 : g ≠ [] := hne g (by rw [e]; simp)
      obtain ⟨c0, g', hg⟩ : ∃ c0 g', g = c0 :: g' := by
        cases g with
        | nil => exact absurd rfl hg0
        | cons c0 g' => exact ⟨c0, g', rfl⟩
      have hb0 := hb a (g :: b) e c0 (by rw [hg]; simp)
      refine .cons _ _ ⟨hg0, ?_⟩ ?_ (ih (a ++ [g]) (by rw [e]; simp))
      · intro u d v hguv hu
        by_contra hk
        have hloc : keeps P (a.flatten ++ u).reverse d = keeps P u.reverse d := by
          rw [List.reverse_append]
          refine keeps_local hP (c0 := c0) ?_ hb0
          cases u with
          | nil => exact absurd rfl hu
          | cons x u =>
            rw [hg] at hguv
            simp only [List.cons_append, List.cons.injEq] at hguv
            rw [hguv.1]
            simp
        have hnj : ¬ Joined P (a.flatten ++ u) d := by rw [← keeps_iff hP, hloc]; exact hk
        have hau : a.flatten ++ u ≠ [] := by simp [hu]
        obtain ⟨a', b', e1, e2⟩ := (h.bounds (a.flatten ++ u) d (v ++ b.flatten) (by
          rw [← h.flatten, e, List.flatten_append, List.flatten_cons, hguv]; simp) hau).2 hnj
        rw [e] at e1
        rcases List.append_eq_append_iff.1 e1 with ⟨c, f1, f2⟩ | ⟨c, f1, f2⟩
        · cases c with
          | nil =>
            rw [List.append_nil] at f1
            rw [f1] at e2
            exact hu (by simpa using e2)
          | cons z c =>
            simp only [List.cons_append, List.cons.injEq] at f2
            rw [f1, ← f2.1] at e2
            simp only [List.flatten_append, List.flatten_cons, List.append_assoc, List.append_cancel_left_eq] at e2
            have := congrArg List.length e2
            rw [hguv] at this
            simp at this
        · rw [f1] at e2
          have := congrArg List.length e2
          simp only [List.flatten_append, List.length_append] at this
          have hul := List.length_pos_of_ne_nil hu
          omega
      · intro d hd
        have := hb (a ++ [g]) b (by rw [e]; simp) d hd
        have e2 : (a ++ [g]).flatten.reverse = g.reverse ++ a.flatten.reverse := by simp
        rw [e2, keeps_local hP (c0 := c0) (by rw [hg]; simp) hb0] at this
        exact this
  exact key [] gs rfl

/-! ## ASCII -/

theorem keeps_ascii (hA : P.Ascii) {c d : Char} {rest : Str} (hc : c.toNat < 128) (hd : d.toNat < 128) :
    keeps P (c :: rest) d = true ↔ c = '\r' ∧ d = '\n' := by
  have hg : ∀ x : Char, x.toNat < 128 → x = '\r' ∧ P.gcb x = .cr ∨ x = '\n' ∧ P.gcb x = .lf ∨
      (x ≠ '\r' ∧ x ≠ '\n') ∧ (P.gcb x = .control ∨ P.gcb x = .other) := by
    intro x hx
    by_cases h1 : x = '\r'
    · exact Or.inl ⟨h1, h1 ▸ hA.cr⟩
    by_cases h2 : x = '\n'
    · exact Or.inr (Or.inl ⟨h2, h2 ▸ hA.lf⟩)
    refine Or.inr (Or.inr ⟨⟨h1, h2⟩, ?_⟩)
    by_cases h3 : x.toNat < 32 ∨ x.toNat = 127
    · exact Or.inl (hA.control x h3 h1 h2)
    · exact Or.inr (hA.other x (by omega) (by omega))
  have h1 : conjunct P (c :: rest) d = false := by unfold conjunct; simp [hA.incb d hd]
  have h2 : emoji P (c :: rest) d = false := by unfold emoji; simp [hA.pict d hd]
  have h3 : flag P (c :: rest) d = false := by
    unfold flag
    have : P.gcb d ≠ .ri := by rcases hg d hd with ⟨_, h⟩ | ⟨_, h⟩ | ⟨_, h | h⟩ <;> rw [h] <;> simp
    simp [this]
  unfold keeps
  dsimp only
  rw [h1, h2, h3]
  rcases hg c hc with ⟨rfl, e1⟩ | ⟨rfl, e1⟩ | ⟨⟨n1, n2⟩, e1 | e1⟩ <;>
    rcases hg d hd with ⟨rfl, e2⟩ | ⟨rfl, e2⟩ | ⟨⟨n3, n4⟩, e2 | e2⟩ <;>
      simp_all [pairRule]

end Unicode
end Dandy
