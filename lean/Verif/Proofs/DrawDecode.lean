import Verif.Proofs.DrawPicture
/-! # Reading ASCII pictures back (for C65) -/

namespace Dandy
namespace Draw

/-! ## Texts joined by a separator -/

theorem append_cons_inj {c : Char} {x y a b : Str} (hx : c ∉ x) (hy : c ∉ y) (h : x ++ c :: a = y ++ c :: b) : x = y ∧ a = b := by
  induction x generalizing y with
  | nil =>
    cases y with
    | nil => simpa using h
    | cons d y =>
      simp only [List.nil_append, List.cons_append, List.cons.injEq] at h
      exact absurd (h.1 ▸ List.mem_cons_self) hy
  | cons d x ih =>
    cases y with
    | nil =>
      simp only [List.nil_append, List.cons_append, List.cons.injEq] at h
      exact absurd (h.1 ▸ List.mem_cons_self) hx
    | cons e y =>
      simp only [List.cons_append, List.cons.injEq] at h
      obtain ⟨h1, h2⟩ := ih (fun hm => hx (List.mem_cons_of_mem _ hm)) (fun hm => hy (List.mem_cons_of_mem _ hm)) h.2
      exact ⟨by rw [h.1, h1], h2⟩

theorem intercalate_cons_cons (sep x y : Str) (l : List Str) :
    List.intercalate sep (x :: y :: l) = x ++ (sep ++ List.intercalate sep (y :: l)) := by
  simp [List.intercalate, List.intersperse]

theorem intercalate_one (sep x : Str) : List.intercalate sep [x] = x := by simp [List.intercalate, List.intersperse]

theorem intercalate_inj {c : Char} {p r : Str} (hp : c ∉ p) : ∀ {l l' : List Str}, l ≠ [] → l' ≠ [] → (∀ x ∈ l, c ∉ x) → (∀ x ∈ l', c ∉ x) →
    List.intercalate (p ++ c :: r) l = List.intercalate (p ++ c :: r) l' → l = l'
  | [], _, h, _, _, _, _ => absurd rfl h
  | _, [], _, h, _, _, _ => absurd rfl h
  | [x], [y], _, _, _, _, h => by simpa [intercalate_one] using h
  | [x], y :: z :: m, _, _, hx, _, h => by
    rw [intercalate_one, intercalate_cons_cons] at h
    exact absurd (by rw [h]; simp) (hx x (by simp))
  | x :: z :: m, [y], _, _, _, hy, h => by
    rw [intercalate_one, intercalate_cons_cons] at h
    exact absurd (by rw [← h]; simp) (hy y (by simp))
  | x :: z :: m, y :: z' :: m', _, _, hx, hy, h => by
    rw [intercalate_cons_cons, intercalate_cons_cons] at h
    simp only [List.append_assoc, List.cons_append] at h
    rw [← List.append_assoc, ← List.append_assoc y] at h
    have hx' : c ∉ x ++ p := fun hm => (List.mem_append.1 hm).elim (hx x (by simp)) hp
    have hy' : c ∉ y ++ p := fun hm => (List.mem_append.1 hm).elim (hy y (by simp)) hp
    obtain ⟨h1, h2⟩ := append_cons_inj hx' hy' h
    rw [List.append_cancel_right h1, intercalate_inj hp (by simp) (by simp) (fun x h => hx x (List.mem_cons_of_mem _ h))
      (fun x h => hy x (List.mem_cons_of_mem _ h)) (List.append_cancel_left h2)]

/-- A text that can be told from what surrounds it in a line of labels. -/
def Plain (e : Str) : Prop := e ≠ [] ∧ ∀ c ∈ e, c ≠ ' ' ∧ c ≠ '|' ∧ c ≠ '\n'

/-- The first character of a list of plain texts is no blank. -/
theorem first_not_blank {x : Str} {l : List Str} (hx : Plain x) : ∃ c, (List.intercalate c!", " (x :: l))[0]? = some c ∧ c ≠ ' ' := by
  obtain ⟨h1, h2⟩ := hx
  cases x with
  | nil => exact absurd rfl h1
  | cons d x =>
    refine ⟨d, ?_, (h2 d (by simp)).1⟩
    cases l with
    | nil => rw [intercalate_one]; rfl
    | cons z l => rw [intercalate_cons_cons]; rfl

/-- In a list of plain texts another character follows a blank. -/
theorem after_blank : ∀ {l : List Str}, (∀ e ∈ l, Plain e) → ∀ t, (List.intercalate c!", " l)[t]? = some ' ' →
    ∃ c, (List.intercalate c!", " l)[t + 1]? = some c ∧ c ≠ ' '
  | [], _, t, h => by simp [List.intercalate] at h
  | [x], hl, t, h => by
    rw [intercalate_one] at h
    exact absurd rfl ((hl x (by simp)).2 _ (List.mem_of_getElem? h)).1
  | x :: y :: l, hl, t, h => by
    rw [intercalate_cons_cons] at h ⊢
    by_cases ht : t < x.length
    · rw [List.getElem?_append_left ht] at h
      exact absurd rfl ((hl x (by simp)).2 _ (List.mem_of_getElem? h)).1
    · rw [List.getElem?_append_right (by omega)] at h
      rw [List.getElem?_append_right (by omega)]
      obtain ⟨u, hu⟩ : ∃ u, t = x.length + u := ⟨t - x.length, by omega⟩
      rw [hu, Nat.add_sub_cancel_left] at h
      rw [hu, show x.length + u + 1 - x.length = u + 1 from by omega]
      match u with
      | 0 => exact absurd h (by simp)
      | 1 => exact first_not_blank (hl y (by simp))
      | u + 2 => exact after_blank (l := y :: l) (fun e he => hl e (List.mem_cons_of_mem _ he)) u h

theorem written_plain {l : List Str} (hl : ∀ e ∈ l, Plain e) : ∀ c ∈ List.intercalate c!", " l, c ≠ '|' ∧ c ≠ '\n' := by
  intro c hc
  rcases mem_intercalate l hc with ⟨e, he, hce⟩ | hc
  · exact ((hl e he).2 c hce).2
  · have : ∀ c ∈ c!", ", c ≠ '|' ∧ c ≠ '\n' := by decide
    exact this c hc

/-- At every place of a label, there or right after it there is a character that is neither blank nor bar. -/
theorem label_mark {l : List Str} (hl : ∀ e ∈ l, Plain e) {t : Nat} (ht : t < (List.intercalate c!", " l).length) :
    ∃ u, t ≤ u ∧ ∃ c, (List.intercalate c!", " l)[u]? = some c ∧ c ≠ ' ' ∧ c ≠ '|' := by
  by_cases h : (List.intercalate c!", " l)[t]? = some ' '
  · obtain ⟨c, h1, h2⟩ := after_blank hl t h
    exact ⟨t + 1, by omega, c, h1, h2, (written_plain hl c (List.mem_of_getElem? h1)).1⟩
  · refine ⟨t, Nat.le_refl _, _, List.getElem?_eq_getElem ht, fun e => h ?_, (written_plain hl _ (List.getElem_mem ht)).1⟩
    rw [List.getElem?_eq_getElem ht, e]

/-! ## Columns -/

theorem block {K a b r s : Nat} (hr : r < K) (hs : s < K) (h : K * a + r = K * b + s) : a = b ∧ r = s := by
  rcases Nat.lt_trichotomy a b with hab | rfl | hab
  · have := Nat.mul_le_mul_left K (show a + 1 ≤ b from hab)
    rw [Nat.mul_succ] at this
    omega
  · exact ⟨rfl, by omega⟩
  · have := Nat.mul_le_mul_left K (show b + 1 ≤ a from hab)
    rw [Nat.mul_succ] at this
    omega

theorem mul_lt {K a b : Nat} (h : a < b) : K * a + K ≤ K * b := by
  have := Nat.mul_le_mul_left K (show a + 1 ≤ b from h)
  rwa [Nat.mul_succ] at this

/-- What is known about arrows placed on levels. -/
structure Scene (w n : Nat) (placed : List (PlacedArrow GroupedArrow)) : Prop where
  name : 0 < w
  oriented : ∀ p ∈ placed, p.arrow.Oriented
  inside : ∀ p ∈ placed, p.arrow.right < n
  apart : ∀ p ∈ placed, ∀ q ∈ placed, p.level = q.level → p ≠ q →
    Before p.arrow.left p.arrow.right q.arrow.left q.arrow.right ∨ Before q.arrow.left q.arrow.right p.arrow.left p.arrow.right
  fits : ∀ p ∈ placed, p.arrow.Fits w
  plain : ∀ p ∈ placed, p.arrow.labels ≠ [] ∧ ∀ e ∈ p.arrow.labels, Plain e

section decode
variable {w n : Nat} {P : List (PlacedArrow GroupedArrow)} {level : Nat} {U L : Str}

/-- What a character in the upper line means. -/
theorem upper_char (hu : UpperLine w n P level U) {x : Nat} {c : Char} (h : U[x]? = some c) (h1 : c ≠ '|') (h2 : c ≠ ' ') :
    ∃ p ∈ P, p.level = level ∧ p.arrow.Covers w x ∧ c = if x = (p.arrow.head w).1 then (p.arrow.head w).2 else '-' := by
  by_cases hc : ∃ p ∈ P, p.level = level ∧ p.arrow.Covers w x
  · obtain ⟨p, hp, hl, hx⟩ := hc
    refine ⟨p, hp, hl, hx, ?_⟩
    have := hu.arrow p hp hl x hx
    rw [h] at this
    exact Option.some.inj this
  · have hc' : ∀ p ∈ P, p.level = level → ¬ p.arrow.Covers w x := fun p hp hl hx => hc ⟨p, hp, hl, hx⟩
    by_cases hb : ∃ p ∈ P, level < p.level ∧ p.arrow.Bar w x
    · have := hu.bar x hc' hb
      rw [h] at this
      exact absurd (Option.some.inj this) h1
    · have hx : x < lineWidth w n := by
        have := (List.getElem?_eq_some_iff.1 h).1
        rwa [hu.width] at this
      have := hu.blank x hx hc' (fun p hp hl hx => hb ⟨p, hp, hl, hx⟩)
      rw [h] at this
      exact absurd (Option.some.inj this) h2

theorem upper_newline (hu : UpperLine w n P level U) : '\n' ∉ U := by
  intro hm
  obtain ⟨x, hx⟩ := List.getElem?_of_mem hm
  obtain ⟨p, _, _, _, h⟩ := upper_char hu hx (by decide) (by decide)
  split at h
  · unfold GroupedArrow.head at h
    split at h <;> exact absurd h (by simp)
  · revert h; decide

/-- What a character in the lower line means. -/
theorem lower_char (hl : LowerLine w n P level L) {x : Nat} {c : Char} (h : L[x]? = some c) :
    (∃ p ∈ P, p.level = level ∧ p.arrow.Shows w x c) ∨ c = '|' ∨ c = ' ' := by
  by_cases hc : ∃ p ∈ P, p.level = level ∧ ∃ c, p.arrow.Shows w x c
  · obtain ⟨p, hp, hlv, d, hx⟩ := hc
    have := hl.label p hp hlv x d hx
    rw [h] at this
    cases this
    exact Or.inl ⟨p, hp, hlv, hx⟩
  · have hc' : ∀ p ∈ P, p.level = level → ∀ c, ¬ p.arrow.Shows w x c := fun p hp hl c hx => hc ⟨p, hp, hl, c, hx⟩
    by_cases hb : ∃ p ∈ P, level ≤ p.level ∧ p.arrow.Bar w x
    · have := hl.bar x hc' hb
      rw [h] at this
      exact Or.inr (Or.inl (Option.some.inj this))
    · have hx : x < lineWidth w n := by
        have := (List.getElem?_eq_some_iff.1 h).1
        rwa [hl.width] at this
      have := hl.blank x hx hc' (fun p hp hl hx => hb ⟨p, hp, hl, hx⟩)
      rw [h] at this
      exact Or.inr (Or.inr (Option.some.inj this))

theorem lower_newline (hs : Scene w n P) (hl : LowerLine w n P level L) : '\n' ∉ L := by
  intro hm
  obtain ⟨x, hx⟩ := List.getElem?_of_mem hm
  rcases lower_char hl hx with ⟨p, hp, _, _, _, h⟩ | h | h
  · exact ((written_plain (hs.plain p hp).2) _ (List.mem_of_getElem? h)).2 rfl
  · revert h; decide
  · revert h; decide

/-- A loop at state `i`. -/
theorem loop_iff (hs : Scene w n P) (hu : UpperLine w n P level U) (i : Nat) :
    U[enterCol w i + 1]? = some '>' ↔ ∃ p ∈ P, p.level = level ∧ p.arrow.left = i ∧ p.arrow.right = i := by
  have hw := hs.name
  constructor
  · intro h
    obtain ⟨p, hp, hl, hc, he⟩ := upper_char hu h (by decide) (by decide)
    refine ⟨p, hp, hl, ?_⟩
    have ho := hs.oriented p hp
    unfold GroupedArrow.Oriented at ho
    by_cases hx : enterCol w i + 1 = (p.arrow.head w).1
    · rw [if_pos hx] at he
      unfold GroupedArrow.head at hx he
      cases hd : p.arrow.direction with
      | left => rw [hd] at he; exact absurd he (by simp)
      | right =>
        rw [hd] at hx
        simp only [enterCol, leaveCol] at hx
        have := (block (K := w + 7) (a := i) (b := p.arrow.left + 1) (r := 6) (s := 1) (by omega) (by omega) (by
          rw [Nat.mul_succ]; omega)).2
        omega
      | spot =>
        rw [hd] at hx ho
        simp only [enterCol] at hx
        have h1 := (block (K := w + 7) (a := i) (b := p.arrow.left) (r := 6) (s := 6) (by omega) (by omega) (by omega)).1
        dsimp only at ho
        omega
    · rw [if_neg hx] at he
      exact absurd he (by decide)
  · rintro ⟨p, hp, hl, h1, h2⟩
    have ho := hs.oriented p hp
    unfold GroupedArrow.Oriented at ho
    have hd : p.arrow.direction = .spot := by
      cases hd : p.arrow.direction <;> rw [hd] at ho <;> dsimp only at ho <;> first | rfl | omega
    have := hu.arrow p hp hl (enterCol w i + 1) (by
      unfold GroupedArrow.Covers
      rw [if_pos (by omega), h1]
      unfold enterCol leaveCol
      omega)
    rw [this]
    unfold GroupedArrow.head
    rw [hd, h1]
    simp

/-- An arrow to the right that starts at state `a`. -/
theorem right_iff (hs : Scene w n P) (hu : UpperLine w n P level U) (a : Nat) :
    U[leaveCol w a + 2]? = some '>' ↔ ∃ p ∈ P, p.level = level ∧ p.arrow.left = a ∧ p.arrow.direction = .right := by
  have hw := hs.name
  constructor
  · intro h
    obtain ⟨p, hp, hl, hc, he⟩ := upper_char hu h (by decide) (by decide)
    refine ⟨p, hp, hl, ?_⟩
    by_cases hx : leaveCol w a + 2 = (p.arrow.head w).1
    · rw [if_pos hx] at he
      unfold GroupedArrow.head at hx he
      cases hd : p.arrow.direction with
      | left => rw [hd] at he; exact absurd he (by simp)
      | right =>
        rw [hd] at hx
        simp only [leaveCol] at hx
        have h1 := (block (K := w + 7) (a := a + 1) (b := p.arrow.left + 1) (r := 1) (s := 1) (by omega) (by omega) (by
          rw [Nat.mul_succ, Nat.mul_succ]; omega)).1
        exact ⟨by omega, rfl⟩
      | spot =>
        rw [hd] at hx
        simp only [leaveCol, enterCol] at hx
        have := (block (K := w + 7) (a := a + 1) (b := p.arrow.left) (r := 1) (s := 6) (by omega) (by omega) (by
          rw [Nat.mul_succ]; omega)).2
        omega
    · rw [if_neg hx] at he
      exact absurd he (by decide)
  · rintro ⟨p, hp, hl, h1, hd⟩
    have ho := hs.oriented p hp
    unfold GroupedArrow.Oriented at ho
    rw [hd] at ho
    dsimp only at ho
    have := mul_lt (K := w + 7) ho
    have := hu.arrow p hp hl (leaveCol w a + 2) (by
      unfold GroupedArrow.Covers
      rw [if_neg (by omega), h1]
      rw [h1] at this
      unfold enterCol leaveCol
      omega)
    rw [this]
    unfold GroupedArrow.head
    rw [hd, h1]
    simp

/-- An arrow to the left that starts at state `b`. -/
theorem left_iff (hs : Scene w n P) (hu : UpperLine w n P level U) (b : Nat) :
    U[enterCol w b - 1]? = some '<' ↔ ∃ p ∈ P, p.level = level ∧ p.arrow.right = b ∧ p.arrow.direction = .left := by
  have hw := hs.name
  constructor
  · intro h
    obtain ⟨p, hp, hl, hc, he⟩ := upper_char hu h (by decide) (by decide)
    refine ⟨p, hp, hl, ?_⟩
    by_cases hx : enterCol w b - 1 = (p.arrow.head w).1
    · rw [if_pos hx] at he
      unfold GroupedArrow.head at hx he
      cases hd : p.arrow.direction with
      | left =>
        rw [hd] at hx
        simp only [enterCol] at hx
        have h1 := (block (K := w + 7) (a := b) (b := p.arrow.right) (r := 4) (s := 4) (by omega) (by omega) (by omega)).1
        exact ⟨by omega, rfl⟩
      | right => rw [hd] at he; exact absurd he (by simp)
      | spot => rw [hd] at he; exact absurd he (by simp)
    · rw [if_neg hx] at he
      exact absurd he (by decide)
  · rintro ⟨p, hp, hl, h1, hd⟩
    have ho := hs.oriented p hp
    unfold GroupedArrow.Oriented at ho
    rw [hd] at ho
    dsimp only at ho
    have := mul_lt (K := w + 7) ho
    have := hu.arrow p hp hl (enterCol w b - 1) (by
      unfold GroupedArrow.Covers
      rw [if_neg (by omega), h1]
      rw [h1] at this
      unfold enterCol leaveCol
      omega)
    rw [this]
    unfold GroupedArrow.head
    rw [hd, h1]
    simp

/-- An arrow passes above the states between its ends. -/
theorem passes (hs : Scene w n P) (hu : UpperLine w n P level U) {p : PlacedArrow GroupedArrow} (hp : p ∈ P) (hl : p.level = level) {j : Nat}
    (h1 : p.arrow.left < j) (h2 : j < p.arrow.right) : U[enterCol w j + 1]? = some '-' := by
  have hw := hs.name
  have m1 := mul_lt (K := w + 7) h1
  have m2 := mul_lt (K := w + 7) h2
  have := hu.arrow p hp hl (enterCol w j + 1) (by
    unfold GroupedArrow.Covers
    rw [if_neg (by omega)]
    unfold enterCol leaveCol
    omega)
  rw [this, if_neg]
  intro hx
  have ho := hs.oriented p hp
  unfold GroupedArrow.Oriented at ho
  unfold GroupedArrow.head at hx
  cases hd : p.arrow.direction with
  | left =>
    rw [hd] at hx
    simp only [enterCol] at hx
    have := (block (K := w + 7) (a := j) (b := p.arrow.right) (r := 6) (s := 4) (by omega) (by omega) (by omega)).2
    omega
  | right =>
    rw [hd] at hx
    simp only [enterCol, leaveCol] at hx
    have := (block (K := w + 7) (a := j) (b := p.arrow.left + 1) (r := 6) (s := 1) (by omega) (by omega) (by
      rw [Nat.mul_succ]; omega)).2
    omega
  | spot => rw [hd] at ho; dsimp only at ho; omega

/-- No arrow of the same level passes above the ends of an arrow. -/
theorem stops (hs : Scene w n P) (hu : UpperLine w n P level U) {p : PlacedArrow GroupedArrow} (hp : p ∈ P) (hl : p.level = level)
    {j : Nat} (hne : p.arrow.left ≠ p.arrow.right) (hj : j = p.arrow.left ∨ j = p.arrow.right) : U[enterCol w j + 1]? ≠ some '-' := by
  have hw := hs.name
  intro h
  obtain ⟨q, hq, hlq, hc, he⟩ := upper_char hu h (by decide) (by decide)
  have ho := hs.oriented p hp
  have hoq := hs.oriented q hq
  unfold GroupedArrow.Oriented at ho hoq
  have hlt : p.arrow.left < p.arrow.right := by
    cases hd : p.arrow.direction <;> rw [hd] at ho <;> dsimp only at ho <;> omega
  unfold GroupedArrow.Covers at hc
  split at hc
  · rename_i e
    have hd : q.arrow.direction = .spot := by
      cases hd : q.arrow.direction <;> rw [hd] at hoq <;> dsimp only at hoq <;> first | rfl | omega
    have hij : q.arrow.left = j := by
      unfold enterCol leaveCol at hc
      rcases Nat.lt_trichotomy q.arrow.left j with h1 | h1 | h1
      · have := mul_lt (K := w + 7) h1; omega
      · exact h1
      · have := mul_lt (K := w + 7) h1; omega
    have : (q.arrow.head w) = (enterCol w j + 1, '>') := by unfold GroupedArrow.head; rw [hd, hij]
    rw [this] at he
    simp at he
  · rename_i e
    have hq1 : q.arrow.left < j := by
      by_contra hcon
      have := Nat.mul_le_mul_left (w + 7) (show j ≤ q.arrow.left by omega)
      unfold enterCol leaveCol at hc
      omega
    have hq2 : j < q.arrow.right := by
      by_contra hcon
      have := Nat.mul_le_mul_left (w + 7) (show q.arrow.right ≤ j by omega)
      unfold enterCol leaveCol at hc
      omega
    have hpq : p ≠ q := by rintro rfl; omega
    rcases hs.apart p hp q hq (by omega) hpq with ⟨h1, _⟩ | ⟨h1, _⟩ <;> omega

end decode

/-- Two arrows that look the same. -/
def Alike (g g' : GroupedArrow) : Prop := g.left = g'.left ∧ g.right = g'.right ∧ g.direction = g'.direction

section two
variable {w n : Nat} {P P' : List (PlacedArrow GroupedArrow)} {level : Nat} {U L : Str}

/-- The upper line determines the arrows of the level. -/
theorem same_arrow (hs : Scene w n P) (hs' : Scene w n P') (hu : UpperLine w n P level U) (hu' : UpperLine w n P' level U)
    {p : PlacedArrow GroupedArrow} (hp : p ∈ P) (hl : p.level = level) : ∃ p' ∈ P', p'.level = level ∧ Alike p.arrow p'.arrow := by
  have ho := hs.oriented p hp
  unfold GroupedArrow.Oriented at ho
  cases hd : p.arrow.direction with
  | spot =>
    rw [hd] at ho
    dsimp only at ho
    obtain ⟨p', hp', hl', h1, h2⟩ := (loop_iff hs' hu' p.arrow.left).1 ((loop_iff hs hu _).2 ⟨p, hp, hl, rfl, ho.symm⟩)
    refine ⟨p', hp', hl', by omega, by omega, ?_⟩
    have ho' := hs'.oriented p' hp'
    unfold GroupedArrow.Oriented at ho'
    rw [hd]
    cases hd' : p'.arrow.direction <;> rw [hd'] at ho' <;> dsimp only at ho' <;> first | rfl | omega
  | right =>
    rw [hd] at ho
    dsimp only at ho
    obtain ⟨p', hp', hl', h1, h2⟩ := (right_iff hs' hu' p.arrow.left).1 ((right_iff hs hu _).2 ⟨p, hp, hl, rfl, hd⟩)
    have ho' := hs'.oriented p' hp'
    unfold GroupedArrow.Oriented at ho'
    rw [h2] at ho'
    dsimp only at ho'
    refine ⟨p', hp', hl', h1.symm, ?_, by rw [hd, h2]⟩
    rcases Nat.lt_trichotomy p.arrow.right p'.arrow.right with h | h | h
    · exact absurd (passes hs' hu' hp' hl' (by omega) h) (stops hs hu hp hl (by omega) (Or.inr rfl))
    · exact h
    · exact absurd (passes hs hu hp hl (by omega) h) (stops hs' hu' hp' hl' (by omega) (Or.inr rfl))
  | left =>
    rw [hd] at ho
    dsimp only at ho
    obtain ⟨p', hp', hl', h1, h2⟩ := (left_iff hs' hu' p.arrow.right).1 ((left_iff hs hu _).2 ⟨p, hp, hl, rfl, hd⟩)
    have ho' := hs'.oriented p' hp'
    unfold GroupedArrow.Oriented at ho'
    rw [h2] at ho'
    dsimp only at ho'
    refine ⟨p', hp', hl', ?_, h1.symm, by rw [hd, h2]⟩
    rcases Nat.lt_trichotomy p.arrow.left p'.arrow.left with h | h | h
    · exact absurd (passes hs hu hp hl h (by omega)) (stops hs' hu' hp' hl' (by omega) (Or.inl rfl))
    · exact h
    · exact absurd (passes hs' hu' hp' hl' h (by omega)) (stops hs hu hp hl (by omega) (Or.inl rfl))

/-- Between the label of an arrow and its right end there are only blanks and bars. -/
theorem after_label (hs : Scene w n P) (hl : LowerLine w n P level L) {p : PlacedArrow GroupedArrow} (hp : p ∈ P) (hlv : p.level = level)
    (hne : p.arrow.left ≠ p.arrow.right) {x : Nat} (h1 : leaveCol w p.arrow.left + 1 + p.arrow.written.length ≤ x)
    (h2 : x ≤ enterCol w p.arrow.right) : L[x]? = some '|' ∨ L[x]? = some ' ' := by
  have hx : x < L.length := by
    rw [hl.width]
    have := mul_lt (K := w + 7) (hs.inside p hp)
    unfold lineWidth
    unfold enterCol at h2
    omega
  rcases lower_char hl (List.getElem?_eq_getElem hx) with ⟨q, hq, hlq, hn, h3, h4⟩ | h | h
  · exfalso
    have hlen := (List.getElem?_eq_some_iff.1 h4).1
    by_cases hpq : p = q
    · subst hpq
      omega
    · have hfq := hs.fits q hq hn
      rcases hs.apart p hp q hq (by omega) hpq with ⟨h5, _⟩ | ⟨h5, _⟩
      · have := Nat.mul_le_mul_left (w + 7) h5
        unfold enterCol leaveCol at *
        omega
      · have := Nat.mul_le_mul_left (w + 7) h5
        unfold enterCol leaveCol at *
        omega
  · left; rw [List.getElem?_eq_getElem hx, h]
  · right; rw [List.getElem?_eq_getElem hx, h]

theorem label_char (hl : LowerLine w n P level L) {p : PlacedArrow GroupedArrow} (hp : p ∈ P) (hlv : p.level = level)
    (hne : p.arrow.left ≠ p.arrow.right) {t : Nat} (ht : t < p.arrow.written.length) :
    L[leaveCol w p.arrow.left + 1 + t]? = p.arrow.written[t]? := by
  rw [List.getElem?_eq_getElem ht]
  exact hl.label p hp hlv _ _ ⟨hne, by omega, by
    rw [show leaveCol w p.arrow.left + 1 + t - (leaveCol w p.arrow.left + 1) = t by omega, List.getElem?_eq_getElem ht]⟩

/-- The lower line determines the labels of the arrows of the level. -/
theorem same_labels (hs : Scene w n P) (hs' : Scene w n P') (hl : LowerLine w n P level L) (hl' : LowerLine w n P' level L)
    {p p' : PlacedArrow GroupedArrow} (hp : p ∈ P) (hlv : p.level = level) (hp' : p' ∈ P') (hlv' : p'.level = level)
    (ha : Alike p.arrow p'.arrow) (hne : p.arrow.left ≠ p.arrow.right) : p.arrow.labels = p'.arrow.labels := by
  obtain ⟨a1, a2, a3⟩ := ha
  have hne' : p'.arrow.left ≠ p'.arrow.right := by rw [← a1, ← a2]; exact hne
  obtain ⟨e1, e2⟩ := hs.plain p hp
  obtain ⟨e1', e2'⟩ := hs'.plain p' hp'
  have key : ∀ {P P' : List (PlacedArrow GroupedArrow)}, Scene w n P → Scene w n P' → LowerLine w n P level L → LowerLine w n P' level L →
      ∀ {p p' : PlacedArrow GroupedArrow}, p ∈ P → p.level = level → p' ∈ P' → p'.level = level → Alike p.arrow p'.arrow →
      p.arrow.left ≠ p.arrow.right → ¬ p.arrow.written.length < p'.arrow.written.length := by
    intro P P' hs hs' hl hl' p p' hp hlv hp' hlv' ⟨a1, a2, a3⟩ hne h
    have hne' : p'.arrow.left ≠ p'.arrow.right := by rw [← a1, ← a2]; exact hne
    obtain ⟨u, hu, c, hc, hc1, hc2⟩ := label_mark (hs'.plain p' hp').2 h
    replace hc : p'.arrow.written[u]? = some c := hc
    have hul := (List.getElem?_eq_some_iff.1 hc).1
    have h3 := label_char hl' hp' hlv' hne' hul
    have hf := hs'.fits p' hp' hne'
    rw [hc, ← a1] at h3
    rw [← a1, ← a2] at hf
    rcases after_label hs hl hp hlv hne (x := leaveCol w p.arrow.left + 1 + u) (by omega) (by omega) with h4 | h4 <;> rw [h3] at h4
    · exact hc2 (Option.some.inj h4)
    · exact hc1 (Option.some.inj h4)
  have key : p.arrow.written.length = p'.arrow.written.length := by
    have h1 := key hs hs' hl hl' hp hlv hp' hlv' ⟨a1, a2, a3⟩ hne
    have h2 := key hs' hs hl' hl hp' hlv' hp hlv ⟨a1.symm, a2.symm, a3.symm⟩ hne'
    omega
  have : p.arrow.written = p'.arrow.written := by
    apply List.ext_getElem? 
    intro t
    by_cases ht : t < p.arrow.written.length
    · rw [← label_char hl hp hlv hne ht, ← label_char hl' hp' hlv' hne' (by omega), a1]
    · rw [List.getElem?_eq_none (by omega), List.getElem?_eq_none (by omega)]
  unfold GroupedArrow.written at this
  exact intercalate_inj (c := ' ') (p := [',']) (r := []) (by decide) e1 e1' (fun x hx hc => ((e2 x hx).2 _ hc).1 rfl) (fun x hx hc => ((e2' x hx).2 _ hc).1 rfl) this

/-- The lines above the states determine the levels. -/
theorem same_levels : ∀ {k k' : Nat} {lines : List Str}, LevelLines w n P k lines → LevelLines w n P' k' lines →
    k = k' ∧ ∀ l < k, ∃ U L, UpperLine w n P l U ∧ UpperLine w n P' l U ∧ LowerLine w n P l L ∧ LowerLine w n P' l L
  | _, _, _, .zero, .zero => ⟨rfl, fun _ h => absurd h (by omega)⟩
  | _, _, _, .succ h1 h2 h3, .succ h1' h2' h3' => by
    obtain ⟨e, ih⟩ := same_levels h3 h3'
    subst e
    refine ⟨rfl, fun l hl => ?_⟩
    rcases Nat.lt_succ_iff_lt_or_eq.1 hl with h | rfl
    · exact ih l h
    · exact ⟨_, _, h1, h1', h2, h2'⟩

theorem levelLines_newline (hs : Scene w n P) : ∀ {k : Nat} {lines : List Str}, LevelLines w n P k lines → ∀ l ∈ lines, '\n' ∉ l
  | _, _, .zero => by simp
  | _, _, .succ h1 h2 h3 => by
    intro l hl
    rcases List.mem_cons.1 hl with rfl | hl
    · exact upper_newline h1
    rcases List.mem_cons.1 hl with rfl | hl
    · exact lower_newline hs h2
    · exact levelLines_newline hs h3 l hl

end two

/-! ## The line of the states -/

/-- A name as it may occur in a table: not empty and without blanks and line ends. -/
def Namely (s : Str) : Prop := s ≠ [] ∧ ∀ c ∈ s, c ≠ ' ' ∧ c ≠ '\n'

theorem stateLine_newline {w : Nat} {states : List State} {line : Str} (h : StateLine w states line) (hn : ∀ s ∈ states, Namely s.name) :
    '\n' ∉ line := by
  intro hm
  obtain ⟨x, hx⟩ := List.getElem?_of_mem hm
  have hlt := (List.getElem?_eq_some_iff.1 hx).1
  rw [h.width] at hlt
  by_cases h3 : x < 3
  · have : (line.take 3)[x]? = some '\n' := by rw [List.getElem?_take, if_pos h3, hx]
    rw [h.arrow] at this
    have hm := List.mem_of_getElem? this
    revert hm
    decide
  · obtain ⟨i, r, hr, he⟩ : ∃ i r, r < w + 7 ∧ x = (w + 7) * i + 3 + r :=
      ⟨(x - 3) / (w + 7), (x - 3) % (w + 7), Nat.mod_lt _ (by omega), by
        have := Nat.div_add_mod (x - 3) (w + 7); omega⟩
    have hi : i < states.length := by
      by_contra hc
      have := Nat.mul_le_mul_left (w + 7) (show states.length ≤ i by omega)
      omega
    obtain ⟨g1, g2, g3, g4, g5, g6, g7, g8, g9⟩ := h.state i _ (List.getElem?_eq_getElem hi)
    have hnm := hn _ (List.getElem_mem hi)
    subst he
    have absd : ∀ {c : Char} {y : Nat}, line[y]? = some c → c ≠ '\n' → y = (w + 7) * i + 3 + r → False := by
      intro c y h1 h2 h3
      rw [h3, hx] at h1
      exact h2 (Option.some.inj h1).symm
    by_cases hr0 : r = 0
    · exact absd g3 (by decide) (by omega)
    by_cases hr1 : r = 1
    · exact absd g4 (by split <;> decide) (by omega)
    by_cases hr2 : r = 2
    · exact absd g5 (by decide) (by omega)
    by_cases hr3 : r < 3 + w
    · by_cases hl : r - 3 < states[i].name.length
      · have := g1 (r - 3) _ (List.getElem?_eq_getElem hl)
        exact absd this (hnm.2 _ (List.getElem_mem hl)).2 (by omega)
      · exact absd (g2 (r - 3) (by omega) (by omega)) (by decide) (by omega)
    by_cases hr4 : r = 3 + w
    · exact absd g6 (by decide) (by omega)
    by_cases hr5 : r = 3 + w + 1
    · exact absd g7 (by split <;> decide) (by omega)
    by_cases hr6 : r = 3 + w + 2
    · exact absd g8 (by decide) (by omega)
    · exact absd g9 (by decide) (by omega)

/-- There is only one line of the states. -/
theorem stateLine_unique {w : Nat} {states : List State} {line line' : Str} (h : StateLine w states line) (h' : StateLine w states line')
    (hw : ∀ s ∈ states, s.name.length ≤ w) : line = line' := by
  apply List.ext_getElem?
  intro x
  by_cases hlt : x < (w + 7) * states.length + 3
  swap
  · rw [List.getElem?_eq_none (by rw [h.width]; omega), List.getElem?_eq_none (by rw [h'.width]; omega)]
  by_cases h3 : x < 3
  · have h1 : (line.take 3)[x]? = line[x]? := by rw [List.getElem?_take, if_pos h3]
    have h2 : (line'.take 3)[x]? = line'[x]? := by rw [List.getElem?_take, if_pos h3]
    rw [← h1, ← h2, h.arrow, h'.arrow]
  · obtain ⟨i, r, hr, he⟩ : ∃ i r, r < w + 7 ∧ x = (w + 7) * i + 3 + r :=
      ⟨(x - 3) / (w + 7), (x - 3) % (w + 7), Nat.mod_lt _ (by omega), by
        have := Nat.div_add_mod (x - 3) (w + 7); omega⟩
    have hi : i < states.length := by
      by_contra hc
      have := Nat.mul_le_mul_left (w + 7) (show states.length ≤ i by omega)
      omega
    obtain ⟨g1, g2, g3, g4, g5, g6, g7, g8, g9⟩ := h.state i _ (List.getElem?_eq_getElem hi)
    obtain ⟨k1, k2, k3, k4, k5, k6, k7, k8, k9⟩ := h'.state i _ (List.getElem?_eq_getElem hi)
    have hnm := hw _ (List.getElem_mem hi)
    subst he
    have eqd : ∀ {o : Option Char} {y : Nat}, line[y]? = o → line'[y]? = o → y = (w + 7) * i + 3 + r →
        line[(w + 7) * i + 3 + r]? = line'[(w + 7) * i + 3 + r]? := by
      intro o y h1 h2 h3
      rw [← h3, h1, h2]
    by_cases hr0 : r = 0
    · exact eqd g3 k3 (by omega)
    by_cases hr1 : r = 1
    · exact eqd g4 k4 (by omega)
    by_cases hr2 : r = 2
    · exact eqd g5 k5 (by omega)
    by_cases hr3 : r < 3 + w
    · by_cases hl : r - 3 < states[i].name.length
      · exact eqd (g1 (r - 3) _ (List.getElem?_eq_getElem hl)) (k1 (r - 3) _ (List.getElem?_eq_getElem hl)) (by omega)
      · exact eqd (g2 (r - 3) (by omega) (by omega)) (k2 (r - 3) (by omega) (by omega)) (by omega)
    by_cases hr4 : r = 3 + w
    · exact eqd g6 k6 (by omega)
    by_cases hr5 : r = 3 + w + 1
    · exact eqd g7 k7 (by omega)
    by_cases hr6 : r = 3 + w + 2
    · exact eqd g8 k8 (by omega)
    · exact eqd g9 k9 (by omega)

theorem namely_len {s : Str} (h : Namely s) : 0 < s.length := List.length_pos_iff.2 h.1

/-- The width of the longest name can be read off the line. -/
theorem same_width_le {w w' : Nat} {states states' : List State} {line : Str} (h : StateLine w states line) (h' : StateLine w' states' line)
    (hw : Longest states w) (hw' : Longest states' w') (hn : ∀ s ∈ states, Namely s.name) (hn' : ∀ s ∈ states', Namely s.name) : ¬ w < w' := by
  intro hlt
  obtain ⟨s0, hs0⟩ : ∃ s, states[0]? = some s := by
    obtain ⟨⟨s, hs, _⟩, _⟩ := hw
    cases states with
    | nil => cases hs
    | cons a l => exact ⟨a, rfl⟩
  obtain ⟨s0', hs0'⟩ : ∃ s, states'[0]? = some s := by
    obtain ⟨⟨s, hs, _⟩, _⟩ := hw'
    cases states' with
    | nil => cases hs
    | cons a l => exact ⟨a, rfl⟩
  obtain ⟨g1, g2, g3, g4, g5, g6, g7, g8, g9⟩ := h.state 0 _ hs0
  obtain ⟨k1, k2, k3, k4, k5, k6, k7, k8, k9⟩ := h'.state 0 _ hs0'
  simp only [Nat.mul_zero, Nat.zero_add] at *
  have hl0 := hw.2 _ (List.mem_of_getElem? hs0)
  have hl0' := hw'.2 _ (List.mem_of_getElem? hs0')
  have hN := hn _ (List.mem_of_getElem? hs0)
  have hN' := hn' _ (List.mem_of_getElem? hs0')
  -- the names have the same length
  have hlen : s0.name.length = s0'.name.length := by
    rcases Nat.lt_trichotomy s0.name.length s0'.name.length with hc | hc | hc
    · exfalso
      have e1 := k1 _ _ (List.getElem?_eq_getElem hc)
      have e2 : line[6 + s0.name.length]? = some ' ' := by
        by_cases hx : s0.name.length < w
        · exact g2 _ (Nat.le_refl _) hx
        · rw [show s0.name.length = w by omega]; exact g6
      rw [e1] at e2
      exact (hN'.2 _ (List.getElem_mem hc)).1 (Option.some.inj e2)
    · exact hc
    · exfalso
      have e1 := g1 _ _ (List.getElem?_eq_getElem hc)
      have e2 : line[6 + s0'.name.length]? = some ' ' := by
        by_cases hx : s0'.name.length < w'
        · exact k2 _ (Nat.le_refl _) hx
        · rw [show s0'.name.length = w' by omega]; exact k6
      rw [e1] at e2
      exact (hN.2 _ (List.getElem_mem hc)).1 (Option.some.inj e2)
  have hacc : s0.accepting = s0'.accepting := by
    rw [g4] at k4
    revert k4
    cases s0.accepting <;> cases s0'.accepting <;> decide
  -- the first bracket after the name
  have hb : ∀ x, s0'.name.length ≤ x → x < w' + 1 → line[6 + x]? = some ' ' := by
    intro x h1 h2
    by_cases hx : x < w'
    · exact k2 x h1 hx
    · rw [show x = w' by omega]; exact k6
  by_cases ha : s0.accepting = true
  · rw [if_pos ha] at g7
    have := hb (w + 1) (by omega) (by omega)
    rw [← Nat.add_assoc] at this
    rw [this] at g7
    revert g7; decide
  · rw [if_neg (by rw [← hacc]; exact ha)] at k7
    have : line[6 + w + 2]? = some ' ' := by
      by_cases hx : w + 2 < w' + 1
      · have := hb (w + 2) (by omega) hx
        rwa [← Nat.add_assoc] at this
      · have : 6 + w + 2 = 6 + w' + 1 := by omega
        rw [this]; exact k7
    rw [this] at g8
    revert g8; decide

/-- The last line determines names and accepting states. -/
theorem same_states {w w' : Nat} {states states' : List State} {line : Str} (h : StateLine w states line) (h' : StateLine w' states' line)
    (hw : Longest states w) (hw' : Longest states' w') (hn : ∀ s ∈ states, Namely s.name) (hn' : ∀ s ∈ states', Namely s.name) :
    w = w' ∧ states.map (fun s => (s.name, s.accepting)) = states'.map (fun s => (s.name, s.accepting)) := by
  have hww : w = w' := by
    have h1 := same_width_le h h' hw hw' hn hn'
    have h2 := same_width_le h' h hw' hw hn' hn
    omega
  subst hww
  have hlen : states.length = states'.length := by
    have h1 := h.width
    rw [h'.width] at h1
    exact (Nat.eq_of_mul_eq_mul_left (show 0 < w + 7 by omega) (Nat.add_right_cancel h1)).symm
  refine ⟨rfl, List.ext_getElem? fun i => ?_⟩
  rw [List.getElem?_map, List.getElem?_map]
  by_cases hi : i < states.length
  · have hi' : i < states'.length := by omega
    rw [List.getElem?_eq_getElem hi, List.getElem?_eq_getElem hi', Option.map_some, Option.map_some]
    obtain ⟨g1, g2, g3, g4, g5, g6, g7, g8, g9⟩ := h.state i _ (List.getElem?_eq_getElem hi)
    obtain ⟨k1, k2, k3, k4, k5, k6, k7, k8, k9⟩ := h'.state i _ (List.getElem?_eq_getElem hi')
    have hl0 := hw.2 _ (List.getElem_mem hi)
    have hl0' := hw'.2 _ (List.getElem_mem hi')
    have hN := hn _ (List.getElem_mem hi)
    have hN' := hn' _ (List.getElem_mem hi')
    have hacc : states[i].accepting = states'[i].accepting := by
      rw [g4] at k4
      revert k4
      cases states[i].accepting <;> cases states'[i].accepting <;> decide
    have hname : states[i].name = states'[i].name := by
      apply List.ext_getElem?
      intro t
      by_cases h1 : t < states[i].name.length
      · have e1 := g1 _ _ (List.getElem?_eq_getElem h1)
        by_cases h2 : t < states'[i].name.length
        · have e2 := k1 _ _ (List.getElem?_eq_getElem h2)
          rw [e1] at e2
          rw [List.getElem?_eq_getElem h1, List.getElem?_eq_getElem h2, e2]
        · have e2 := k2 t (by omega) (by omega)
          rw [e1] at e2
          exact absurd (Option.some.inj e2) (hN.2 _ (List.getElem_mem h1)).1
      · by_cases h2 : t < states'[i].name.length
        · have e2 := k1 _ _ (List.getElem?_eq_getElem h2)
          have e1 := g2 t (by omega) (by omega)
          rw [e1] at e2
          exact absurd (Option.some.inj e2).symm (hN'.2 _ (List.getElem_mem h2)).1
        · rw [List.getElem?_eq_none (by omega), List.getElem?_eq_none (by omega)]
    rw [hname, hacc]
  · rw [List.getElem?_eq_none (by omega), List.getElem?_eq_none (by omega)]

/-! ## The whole picture -/

/-- The scene of a picture. -/
theorem scene_of {ls : Nat → Nat → List Str} {gs : List GroupedArrow} {placed : List (PlacedArrow GroupedArrow)} {levels w n : Nat}
    (hw : 0 < w) (hg : Groups ls gs) (hi : Inside n ls) (hp : Placement GroupedArrow.left GroupedArrow.right gs placed levels)
    (hf : ∀ i j, i ≠ j → ls i j ≠ [] → (List.intercalate c!", " (ls i j)).length + w + 2 ≤ (w + 7) * (max i j - min i j))
    (hpl : ∀ i j, ∀ e ∈ ls i j, Plain e) : Scene w n placed := by
  have hm : ∀ p ∈ placed, p.arrow ∈ gs := fun p h => hp.each.mem_iff.1 (List.mem_map.2 ⟨p, h, rfl⟩)
  refine ⟨hw, fun p h => hg.oriented _ (hm p h), fun p h => ?_, fun p h q h' hl hne => ?_, fun p h hlr => ?_, fun p h => ?_⟩
  · obtain ⟨_, e2, _⟩ := ends_eq (hg.oriented _ (hm p h))
    obtain ⟨e4, e5⟩ := hg.labels _ (hm p h)
    obtain ⟨h1, h2⟩ := hi _ _ (e4 ▸ e5)
    rw [e2]
    exact max_lt h1 h2
  · obtain ⟨i, hi1, hi2⟩ := List.getElem_of_mem h
    obtain ⟨j, hj1, hj2⟩ := List.getElem_of_mem h'
    rcases Nat.lt_trichotomy i j with hij | hij | hij
    · left
      have := List.pairwise_iff_getElem.1 hp.apart i j hi1 hj1 hij
      rw [hi2, hj2] at this
      exact this hl
    · subst hij
      rw [hi2] at hj2
      exact absurd hj2 hne
    · right
      have := List.pairwise_iff_getElem.1 hp.apart j i hj1 hi1 hij
      rw [hi2, hj2] at this
      exact this hl.symm
  · obtain ⟨e1, e2, e3⟩ := ends_eq (hg.oriented _ (hm p h))
    obtain ⟨e4, e5⟩ := hg.labels _ (hm p h)
    have := hf p.arrow.source p.arrow.target (fun e => hlr (e3.2 e)) (e4 ▸ e5)
    unfold GroupedArrow.written
    rw [← e4, ← e1, ← e2, Nat.mul_sub] at this
    have hmono := col_mono w (Oriented.le (hg.oriented _ (hm p h)))
    unfold leaveCol enterCol
    omega
  · obtain ⟨e4, e5⟩ := hg.labels _ (hm p h)
    exact ⟨e5, e4 ▸ hpl _ _⟩

/-- A picture determines the labels between different states and the loops. -/
theorem picture_determines {ls ls' : Nat → Nat → List Str} {gs gs' : List GroupedArrow} {placed placed' : List (PlacedArrow GroupedArrow)}
    {levels levels' w w' : Nat} {states states' : List State} {art : Str}
    (hs : Scene w states.length placed) (hs' : Scene w' states'.length placed') (hw : Longest states w) (hw' : Longest states' w')
    (hg : Groups ls gs) (hg' : Groups ls' gs')
    (hp : Placement GroupedArrow.left GroupedArrow.right gs placed levels)
    (hp' : Placement GroupedArrow.left GroupedArrow.right gs' placed' levels')
    (hn : ∀ s ∈ states, Namely s.name) (hn' : ∀ s ∈ states', Namely s.name)
    (h : Picture w states placed levels art) (h' : Picture w' states' placed' levels' art) :
    states.map (fun s => (s.name, s.accepting)) = states'.map (fun s => (s.name, s.accepting)) ∧
    (∀ i j, i ≠ j → ls i j = ls' i j) ∧ ∀ i, ls i i = [] ↔ ls' i i = [] := by
  obtain ⟨lines, last, a1, a2, a3⟩ := h
  obtain ⟨lines', last', b1, b2, b3⟩ := h'
  rw [a3] at b3
  have hln : ∀ l ∈ lines ++ [last], '\n' ∉ l := by
    intro l hl
    rcases List.mem_append.1 hl with hl | hl
    · exact levelLines_newline hs a1 l hl
    · rw [List.mem_singleton.1 hl]; exact stateLine_newline a2 hn
  have hln' : ∀ l ∈ lines' ++ [last'], '\n' ∉ l := by
    intro l hl
    rcases List.mem_append.1 hl with hl | hl
    · exact levelLines_newline hs' b1 l hl
    · rw [List.mem_singleton.1 hl]; exact stateLine_newline b2 hn'
  have heq := intercalate_inj (c := '\n') (p := []) (r := []) (by simp) (by simp) (by simp) hln hln' b3
  obtain ⟨e1, e2⟩ := List.append_inj' heq rfl
  cases e2
  subst e1
  obtain ⟨rfl, hst⟩ := same_states a2 b2 hw hw' hn hn'
  have hlen : states.length = states'.length := by simpa using congrArg List.length hst
  rw [← hlen] at hs' b1
  obtain ⟨rfl, hlv⟩ := same_levels a1 b1
  have key : ∀ {P P' : List (PlacedArrow GroupedArrow)} {gs gs' : List GroupedArrow} {ls ls' : Nat → Nat → List Str},
      Scene w states.length P → Scene w states.length P' → Groups ls gs → Groups ls' gs' →
      Placement GroupedArrow.left GroupedArrow.right gs P levels → Placement GroupedArrow.left GroupedArrow.right gs' P' levels →
      (∀ l < levels, ∃ U L, UpperLine w states.length P l U ∧ UpperLine w states.length P' l U ∧
        LowerLine w states.length P l L ∧ LowerLine w states.length P' l L) →
      ∀ i j, ls i j ≠ [] → ls' i j ≠ [] ∧ (i ≠ j → ls i j = ls' i j) := by
    intro P P' gs gs' ls ls' hs hs' hg hg' hp hp' hlv i j hne
    obtain ⟨g, hgm, hi, hj⟩ := hg.all i j hne
    obtain ⟨p, hpm, rfl⟩ := List.mem_map.1 (hp.each.mem_iff.2 hgm)
    obtain ⟨U, L, u1, u2, l1, l2⟩ := hlv _ (hp.below p hpm)
    obtain ⟨p', hpm', hl', ha⟩ := same_arrow hs hs' u1 u2 hpm rfl
    have hm' : p'.arrow ∈ gs' := hp'.each.mem_iff.1 (List.mem_map.2 ⟨p', hpm', rfl⟩)
    have hsrc : p'.arrow.source = i := by
      rw [← hi]; unfold GroupedArrow.source; rw [ha.1, ha.2.1, ha.2.2]
    have htgt : p'.arrow.target = j := by
      rw [← hj]; unfold GroupedArrow.target; rw [ha.1, ha.2.1, ha.2.2]
    obtain ⟨k1, k2⟩ := hg'.labels _ hm'
    obtain ⟨k3, k4⟩ := hg.labels _ hgm
    rw [hsrc, htgt] at k1
    rw [hi, hj] at k3
    refine ⟨k1 ▸ k2, fun hij => ?_⟩
    rw [← k1, ← k3]
    exact same_labels hs hs' l1 l2 hpm rfl hpm' hl' ha (fun e => hij (by
      have := (ends_eq (hg.oriented _ hgm)).2.2.1 e
      rw [← hi, ← hj, this]))
  refine ⟨hst, fun i j hij => ?_, fun i => ?_⟩
  · by_cases h1 : ls i j = []
    · by_cases h2 : ls' i j = []
      · rw [h1, h2]
      · exact absurd h1 (key hs' hs hg' hg hp' hp (fun l hl => by
          obtain ⟨U, L, x1, x2, x3, x4⟩ := hlv l hl; exact ⟨U, L, x2, x1, x4, x3⟩) i j h2).1
    · exact (key hs hs' hg hg' hp hp' hlv i j h1).2 hij
  · constructor
    · intro h1
      by_contra h2
      exact (key hs' hs hg' hg hp' hp (fun l hl => by
          obtain ⟨U, L, x1, x2, x3, x4⟩ := hlv l hl; exact ⟨U, L, x2, x1, x4, x3⟩) i i h2).1 h1
    · intro h1
      by_contra h2
      exact (key hs hs' hg hg' hp hp' hlv i i h2).1 h1

/-! ## Iteration orders -/

theorem pairwise_symm_ne {gs : List GroupedArrow} (h : gs.Pairwise (fun g g' => ¬ (g.source = g'.source ∧ g.target = g'.target)))
    {a b : GroupedArrow} (ha : a ∈ gs) (hb : b ∈ gs) (hne : a ≠ b) : ¬ (a.source = b.source ∧ a.target = b.target) := by
  induction h with
  | nil => cases ha
  | cons h1 _ ih =>
    rcases List.mem_cons.1 ha with rfl | ha' <;> rcases List.mem_cons.1 hb with rfl | hb'
    · exact absurd rfl hne
    · exact h1 _ hb'
    · exact fun h => h1 _ ha' ⟨h.1.symm, h.2.symm⟩
    · exact ih ha' hb'

/-- With different right ends the order in which arrows come does not matter. -/
theorem layout_order {ord ord' : List GroupedArrow → List GroupedArrow} (ho : ∀ l, (ord l).Perm l) (ho' : ∀ l, (ord' l).Perm l)
    {as : List Arrow} {ls : Nat → Nat → List Str} (hg : Groups ls (groupArrows ord as))
    (hd : ∀ i j i' j', ls i j ≠ [] → ls i' j' ≠ [] → max i j = max i' j' → i = i' ∧ j = j') : layout ord as = layout ord' as := by
  have hperm : (groupArrows ord as).Perm (groupArrows ord' as) := (ho _).trans (ho' _).symm
  have hinj : ∀ a ∈ groupArrows ord as, ∀ b ∈ groupArrows ord as, a.right = b.right → a = b := by
    intro a ha b hb hab
    have e1 := (ends_eq (hg.oriented a ha)).2.1
    have e2 := (ends_eq (hg.oriented b hb)).2.1
    obtain ⟨l1, n1⟩ := hg.labels a ha
    obtain ⟨l2, n2⟩ := hg.labels b hb
    obtain ⟨h1, h2⟩ := hd _ _ _ _ (l1 ▸ n1) (l2 ▸ n2) (by rw [← e1, ← e2, hab])
    by_contra hne
    exact absurd ⟨h1, h2⟩ (pairwise_symm_ne hg.once ha hb hne)
  have hs : sortArrows GroupedArrow.right (groupArrows ord as) = sortArrows GroupedArrow.right (groupArrows ord' as) := by
    refine List.Perm.eq_of_pairwise (le := fun x y => y.right ≤ x.right) (fun a b ha hb h1 h2 => hinj a ?_ b ?_ (by omega)) (sortArrows_sorted _)
      (sortArrows_sorted _) (((sortArrows_perm _).trans hperm).trans (sortArrows_perm _).symm)
    · exact (sortArrows_perm _).mem_iff.1 ha
    · exact hperm.mem_iff.2 ((sortArrows_perm _).mem_iff.1 hb)
  unfold layout placeArrows
  rw [hs, hperm.length_eq]

end Draw
end Dandy
