import Verif.Proofs.Draw
/-! # ASCII art -/

namespace Dandy
namespace Draw

theorem leftX_eq (w i : Nat) : leftX w i = enterCol w i := by
  unfold leftX enterCol; rw [Nat.add_comm 7 w]; omega

theorem rightX_eq (w i : Nat) : rightX w i = leaveCol w i := by
  unfold rightX leaveCol; rw [Nat.add_comm 7 w]; omega

theorem artWidth_eq (w n : Nat) : artWidth w n = lineWidth w n := by
  unfold artWidth lineWidth; rw [rightX_eq, leaveCol]; omega

theorem col_mono (w : Nat) {i j : Nat} (h : i ≤ j) : (w + 7) * i ≤ (w + 7) * j := Nat.mul_le_mul_left _ h

theorem col_lt (w : Nat) {i j : Nat} (h : i < j) : (w + 7) * i + (w + 7) ≤ (w + 7) * j := by
  have := Nat.mul_le_mul_left (w + 7) h
  rwa [Nat.succ_eq_add_one, Nat.mul_add, Nat.mul_one] at this

/-! ## Assigning single bytes -/

theorem setBytes_spec (ws : List (Nat × Char)) : ∀ line : Str, (∀ x ∈ ws, x.1 < line.length) →
    ∃ line', setBytes line ws = some line' ∧ line'.length = line.length ∧
      (∀ i, (∀ x ∈ ws, x.1 ≠ i) → line'[i]? = line[i]?) ∧
      (∀ pre post i c, ws = pre ++ (i, c) :: post → (∀ x ∈ post, x.1 = i → x.2 = c) → line'[i]? = some c) ∧
      ∀ c ∈ line', c ∈ line ∨ ∃ x ∈ ws, x.2 = c := by
  induction ws with
  | nil =>
    intro line _
    refine ⟨line, rfl, rfl, fun _ _ => rfl, ?_, fun c hc => Or.inl hc⟩
    intro pre post i c h
    simp at h
  | cons x ws ih =>
    intro line h
    have hx : x.1 < line.length := h x List.mem_cons_self
    obtain ⟨line', h1, h2, h3, h4, h5⟩ := ih (line.set x.1 x.2) (by
      intro y hy
      rw [List.length_set]
      exact h y (List.mem_cons_of_mem _ hy))
    refine ⟨line', ?_, by simpa using h2, ?_, ?_, ?_⟩
    · unfold setBytes at h1 ⊢
      rw [List.foldlM_cons, setByte, if_pos hx]
      exact h1
    · intro i hi
      rw [h3 i (fun y hy => hi y (List.mem_cons_of_mem _ hy)), List.getElem?_set_ne (hi x List.mem_cons_self)]
    · intro pre post i c he hp
      cases pre with
      | nil =>
        simp only [List.nil_append, List.cons.injEq] at he
        obtain ⟨rfl, rfl⟩ := he
        by_cases hex : ∃ y ∈ ws, y.1 = i
        · obtain ⟨y, hy, hyi⟩ := hex
          obtain ⟨p, q, hpq⟩ := List.append_of_mem hy
          have hyc : y = (i, c) := Prod.ext hyi (hp y hy hyi)
          subst hyc
          exact h4 p q i c hpq (fun z hz => hp z (by rw [hpq]; exact List.mem_append_right _ (List.mem_cons_of_mem _ hz)))
        · rw [h3 i (fun y hy e => hex ⟨y, hy, e⟩)]
          simp [hx]
      | cons b pre =>
        simp only [List.cons_append, List.cons.injEq] at he
        exact h4 pre post i c he.2 hp
    · intro c hc
      rcases h5 c hc with h6 | ⟨y, hy, h6⟩
      · rcases List.mem_or_eq_of_mem_set h6 with h7 | h7
        · exact Or.inl h7
        · exact Or.inr ⟨x, List.mem_cons_self, h7.symm⟩
      · exact Or.inr ⟨y, List.mem_cons_of_mem _ hy, h6⟩

/-! ## Replacing ranges of bytes -/

open RegexTree (byteLen)

theorem byteLen_cons (c : Char) (cs : Str) : byteLen (c :: cs) = c.utf8Size + byteLen cs := by simp [byteLen]

theorem byteLen_append (a b : Str) : byteLen (a ++ b) = byteLen a + byteLen b := by simp [byteLen]

theorem utf8Size_pos (c : Char) : 0 < c.utf8Size := Char.utf8Size_pos c

theorem splitByte_append (a b : Str) : splitByte (a ++ b) (byteLen a) = some (a, b) := by
  induction a with
  | nil => cases b <;> simp [byteLen, splitByte]
  | cons c a ih =>
    rw [byteLen_cons]
    have := utf8Size_pos c
    obtain ⟨m, hm⟩ : ∃ m, c.utf8Size + byteLen a = m + 1 := ⟨c.utf8Size + byteLen a - 1, by omega⟩
    rw [hm]
    simp only [List.cons_append, splitByte]
    rw [if_pos (by omega)]
    have : m + 1 - c.utf8Size = byteLen a := by omega
    rw [this, ih]
    rfl

theorem splitByte_none (a : Str) : ∀ k, byteLen a < k → splitByte a k = none := by
  induction a with
  | nil =>
    intro k hk
    cases k with
    | zero => simp [byteLen] at hk
    | succ k => rfl
  | cons c a ih =>
    intro k hk
    rw [byteLen_cons] at hk
    cases k with
    | zero => omega
    | succ k =>
      simp only [splitByte]
      split
      · rw [ih _ (by omega)]; rfl
      · rfl

theorem byteLen_ascii (a : Str) (h : ∀ c ∈ a, c.utf8Size = 1) : byteLen a = a.length := by
  induction a with
  | nil => rfl
  | cons c a ih =>
    rw [byteLen_cons, h c List.mem_cons_self, ih (fun x hx => h x (List.mem_cons_of_mem _ hx)), List.length_cons]
    omega

/-- Writing a label where everything from column `s` on is ASCII. -/
theorem replace_spec (line : Str) (s : Nat) (label : Str) (hs : s < line.length) (ha : ∀ c ∈ line.drop s, c.utf8Size = 1) :
    (charIndex line s).bind (fun start => replaceRange line (start + 1) (start + label.length + 1) label) =
      if s + 1 + label.length ≤ line.length then some (line.take (s + 1) ++ label ++ line.drop (s + 1 + label.length)) else none := by
  have key : ∀ m, s + m ≤ line.length →
      splitByte line (byteLen (line.take s) + m) = some (line.take (s + m), line.drop (s + m)) := by
    intro m hm
    have e : byteLen (line.take (s + m)) = byteLen (line.take s) + m := by
      rw [List.take_add, byteLen_append, byteLen_ascii ((line.drop s).take m) (fun c hc => ha c (List.mem_of_mem_take hc))]
      simp
      omega
    rw [← e]
    conv => lhs; rw [← List.take_append_drop (s + m) line]
    rw [List.take_append_drop]
    have := splitByte_append (line.take (s + m)) (line.drop (s + m))
    rwa [List.take_append_drop] at this
  have total : byteLen line = byteLen (line.take s) + (line.length - s) := by
    conv => lhs; rw [← List.take_append_drop s line]
    rw [byteLen_append, byteLen_ascii _ ha, List.length_drop]
  unfold charIndex
  rw [if_pos hs]
  simp only [Option.bind_some, replaceRange]
  rw [key 1 (by omega)]
  simp only [Option.bind_eq_bind, Option.bind_some]
  split
  · rename_i h
    have e : byteLen (line.take s) + label.length + 1 = byteLen (line.take s) + (1 + label.length) := by omega
    rw [e, key (1 + label.length) (by omega)]
    simp only [Option.bind_some]
    rw [Nat.add_assoc]
    rfl
  · rw [splitByte_none]
    · rfl
    · omega

/-- Arrows of one level from left to right, within the picture. -/
structure Row (n : Nat) (here : List GroupedArrow) : Prop where
  oriented : ∀ g ∈ here, g.Oriented
  bound : ∀ g ∈ here, g.right < n
  before : here.Pairwise (fun g g' => Before g.left g.right g'.left g'.right)

theorem Oriented.le {g : GroupedArrow} (h : g.Oriented) : g.left ≤ g.right := by
  unfold GroupedArrow.Oriented at h
  split at h <;> omega

theorem Oriented.spot {g : GroupedArrow} (h : g.Oriented) : g.direction = .spot ↔ g.left = g.right := by
  unfold GroupedArrow.Oriented at h
  split at h
  · rename_i e
    simp [e, h]
  · rename_i e
    constructor
    · intro h'; exact absurd h' e
    · omega

theorem Row.tail {n : Nat} {g : GroupedArrow} {here : List GroupedArrow} (h : Row n (g :: here)) : Row n here :=
  ⟨fun x hx => h.oriented x (List.mem_cons_of_mem _ hx), fun x hx => h.bound x (List.mem_cons_of_mem _ hx),
    (List.pairwise_cons.1 h.before).2⟩

theorem getElem?_replaced {line : Str} {s : Nat} {label : Str} (h : s + 1 + label.length ≤ line.length) (x : Nat) :
    (line.take (s + 1) ++ label ++ line.drop (s + 1 + label.length))[x]? =
      if s < x ∧ x < s + 1 + label.length then label[x - (s + 1)]? else line[x]? := by
  have ht : (line.take (s + 1)).length = s + 1 := by rw [List.length_take]; omega
  by_cases h1 : x < s + 1
  · rw [List.append_assoc, List.getElem?_append_left (by omega), List.getElem?_take_of_lt h1, if_neg (by omega)]
  · by_cases h2 : x < s + 1 + label.length
    · rw [List.append_assoc, List.getElem?_append_right (by omega), ht, List.getElem?_append_left (by omega), if_pos (by omega)]
    · rw [List.append_assoc, List.getElem?_append_right (by omega), ht, List.getElem?_append_right (by omega), List.getElem?_drop,
        if_neg (by omega)]
      congr 1
      omega

/-- The labels of a level, if each fits to its arrow. `p`: everything from this column on is ASCII, and left of all labels to come. -/
theorem labels_fit (w n : Nat) : ∀ (here : List GroupedArrow) (bot : Str) (p : Nat), Row n here → (∀ g ∈ here, g.Fits w) →
    bot.length = lineWidth w n → (∀ c ∈ bot.drop p, c.utf8Size = 1) → (∀ g ∈ here, p ≤ leaveCol w g.left) →
    ∃ bot', here.foldlM (writeLabel w) bot = some bot' ∧ bot'.length = lineWidth w n ∧
      (∀ g ∈ here, ∀ x c, g.Shows w x c → bot'[x]? = some c) ∧
      ∀ x, (∀ g ∈ here, ∀ c, ¬ g.Shows w x c) → bot'[x]? = bot[x]?
  | [], bot, p, _, _, hb, _, _ => ⟨bot, rfl, hb, by simp, fun _ _ => rfl⟩
  | g :: here, bot, p, hr, hf, hb, ha, hp => by
    obtain ⟨hb1, hb2⟩ := List.pairwise_cons.1 hr.before
    have hor := Oriented.le (hr.oriented g List.mem_cons_self)
    have hbd := hr.bound g List.mem_cons_self
    by_cases hloop : g.left = g.right
    · obtain ⟨bot', h1, h2, h3, h4⟩ := labels_fit w n here bot p hr.tail (fun x hx => hf x (List.mem_cons_of_mem _ hx)) hb ha
        (fun x hx => hp x (List.mem_cons_of_mem _ hx))
      refine ⟨bot', ?_, h2, ?_, ?_⟩
      · rw [List.foldlM_cons, writeLabel, if_neg (by simpa using hloop)]
        exact h1
      · intro x hx y c hs
        rcases List.mem_cons.1 hx with rfl | hx
        · exact absurd hloop hs.1
        · exact h3 x hx y c hs
      · intro x hx
        exact h4 x (fun g' hg' => hx g' (List.mem_cons_of_mem _ hg'))
    · have hfit := hf g List.mem_cons_self hloop
      have hc1 := col_mono w (show g.right ≤ n by omega)
      have hw : enterCol w g.right ≤ lineWidth w n := by unfold enterCol lineWidth; omega
      have hlen : leaveCol w g.left + 1 + g.written.length ≤ bot.length := by rw [hb]; omega
      have hascii : ∀ c ∈ bot.drop (leaveCol w g.left), c.utf8Size = 1 := by
        intro c hc
        have : bot.drop (leaveCol w g.left) = (bot.drop p).drop (leaveCol w g.left - p) := by
          rw [List.drop_drop]
          congr 1
          have := hp g List.mem_cons_self
          omega
        rw [this] at hc
        exact ha c (List.mem_of_mem_drop hc)
      have hrep := replace_spec bot (leaveCol w g.left) g.written (by omega) hascii
      rw [if_pos hlen] at hrep
      have hget := fun x => getElem?_replaced hlen x
      generalize hnew : bot.take (leaveCol w g.left + 1) ++ g.written ++ bot.drop (leaveCol w g.left + 1 + g.written.length) = new at hrep hget
      have hnl : new.length = lineWidth w n := by
        rw [← hnew]
        simp only [List.length_append, List.length_take, List.length_drop]
        omega
      obtain ⟨bot', h1, h2, h3, h4⟩ := labels_fit w n here new (leaveCol w g.left + 1 + g.written.length) hr.tail
        (fun x hx => hf x (List.mem_cons_of_mem _ hx)) hnl (by
          intro c hc
          have e : new.drop (leaveCol w g.left + 1 + g.written.length) = bot.drop (leaveCol w g.left + 1 + g.written.length) := by
            apply List.ext_getElem?
            intro i
            rw [List.getElem?_drop, List.getElem?_drop, hget, if_neg (by omega)]
          rw [e] at hc
          have e2 : bot.drop (leaveCol w g.left + 1 + g.written.length) =
              (bot.drop (leaveCol w g.left)).drop (1 + g.written.length) := by
            rw [List.drop_drop]; congr 1; omega
          rw [e2] at hc
          exact hascii c (List.mem_of_mem_drop hc)) (by
          intro x hx
          have h5 := (hb1 x hx).1
          have h6 := col_mono w h5
          unfold enterCol at hfit
          unfold leaveCol at hfit ⊢
          omega)
      have hlater : ∀ x, x < leaveCol w g.left + 1 + g.written.length → ∀ g' ∈ here, ∀ c, ¬ g'.Shows w x c := by
        intro x hx g' hg' c hs
        have h5 := (hb1 g' hg').1
        have h6 := col_mono w h5
        have h7 := hs.2.1
        unfold enterCol at hfit
        unfold leaveCol at hfit hx h7
        omega
      refine ⟨bot', ?_, h2, ?_, ?_⟩
      · rw [List.foldlM_cons, writeLabel, if_pos hloop, rightX_eq]
        have e : (do
            let start ← charIndex bot (leaveCol w g.left)
            replaceRange bot (start + 1) (start + g.label.length + 1) g.label) = some new := hrep
        rw [e]
        exact h1
      · intro x hx y c hs
        rcases List.mem_cons.1 hx with rfl | hx
        · have hlt : y - (leaveCol w x.left + 1) < x.written.length := by
            have := hs.2.2
            rw [List.getElem?_eq_some_iff] at this
            exact this.1
          have hy := hs.2.1
          rw [h4 y (hlater y (by omega)), hget, if_pos (by omega)]
          exact hs.2.2
        · exact h3 x hx y c hs
      · intro x hx
        rw [h4 x (fun g' hg' => hx g' (List.mem_cons_of_mem _ hg')), hget]
        split
        · rename_i h5
          exfalso
          obtain ⟨c, hc⟩ : ∃ c, g.written[x - (leaveCol w g.left + 1)]? = some c :=
            ⟨_, List.getElem?_eq_getElem (by omega)⟩
          exact hx g List.mem_cons_self c ⟨hloop, h5.1, hc⟩
        · rfl

/-- The labels of a level, if all characters are ASCII: it works exactly if all end within the line. -/
theorem labels_ascii (w n : Nat) : ∀ (here : List GroupedArrow) (bot : Str), (∀ g ∈ here, ∀ c ∈ g.written, c.utf8Size = 1) →
    (∀ g ∈ here, g.left < n) → bot.length = lineWidth w n → (∀ c ∈ bot, c.utf8Size = 1) →
    (here.foldlM (writeLabel w) bot = none ↔
      ∃ g ∈ here, g.left ≠ g.right ∧ lineWidth w n < leaveCol w g.left + 1 + g.written.length)
  | [], bot, _, _, _, _ => by simp
  | g :: here, bot, hl, hn, hb, ha => by
    have hl' : ∀ g ∈ here, ∀ c ∈ g.written, c.utf8Size = 1 := fun x hx => hl x (List.mem_cons_of_mem _ hx)
    have hn' : ∀ g ∈ here, g.left < n := fun x hx => hn x (List.mem_cons_of_mem _ hx)
    by_cases hloop : g.left = g.right
    · rw [List.foldlM_cons, writeLabel, if_neg (by simpa using hloop)]
      have := labels_ascii w n here bot hl' hn' hb ha
      simp only [Option.bind_eq_bind, Option.bind_some]
      rw [this]
      simp [hloop]
    · have hlt : leaveCol w g.left < bot.length := by
        rw [hb]
        have := col_lt w (hn g List.mem_cons_self)
        unfold leaveCol lineWidth
        omega
      have hrep := replace_spec bot (leaveCol w g.left) g.written hlt (fun c hc => ha c (List.mem_of_mem_drop hc))
      rw [List.foldlM_cons, writeLabel, if_pos hloop, rightX_eq]
      have e : (do
          let start ← charIndex bot (leaveCol w g.left)
          replaceRange bot (start + 1) (start + g.label.length + 1) g.label) = _ := hrep
      rw [e]
      split
      · rename_i hle
        simp only [Option.bind_eq_bind, Option.bind_some]
        rw [labels_ascii w n here _ hl' hn']
        · simp only [List.mem_cons, exists_eq_or_imp]
          constructor
          · exact Or.inr
          · rintro (⟨_, h⟩ | h)
            · rw [hb] at hle; omega
            · exact h
        · simp only [List.length_append, List.length_take, List.length_drop]
          omega
        · intro c hc
          rcases List.mem_append.1 hc with hc | hc
          · rcases List.mem_append.1 hc with hc | hc
            · exact ha c (List.mem_of_mem_take hc)
            · exact hl g List.mem_cons_self c hc
          · exact ha c (List.mem_of_mem_drop hc)
      · rename_i hle
        simp only [Option.bind_eq_bind, Option.bind_none, true_iff]
        exact ⟨g, List.mem_cons_self, hloop, by rw [hb] at hle; omega⟩

/-! ## The lines of a level -/

/-- The dashes of an arrow. -/
def dashes (w : Nat) (g : GroupedArrow) : List (Nat × Char) :=
  if g.left = g.right then (List.range' (enterCol w g.left) (leaveCol w g.left + 1 - enterCol w g.left)).map (fun x => (x, '-'))
  else (List.range' (leaveCol w g.left) (enterCol w g.right + 1 - leaveCol w g.left)).map (fun x => (x, '-'))

theorem topBytes_eq {w : Nat} {g : GroupedArrow} (h : g.Oriented) : topBytes w g = dashes w g ++ [g.head w] := by
  unfold topBytes dashes GroupedArrow.head
  have hs := Oriented.spot h
  by_cases hl : g.left = g.right
  · have hd := hs.2 hl
    simp only [hd, hl, ↓reduceIte, leftX_eq, rightX_eq]
  · have hd : ¬ g.direction = .spot := fun e => hl (hs.1 e)
    simp only [hd, hl, ↓reduceIte, leftX_eq, rightX_eq]
    cases he : g.direction <;> simp [leftX_eq, rightX_eq]

theorem mem_dashes {w : Nat} {g : GroupedArrow} (h : g.Oriented) {x : Nat} {c : Char} :
    (x, c) ∈ dashes w g ↔ g.Covers w x ∧ c = '-' := by
  have hle := Oriented.le h
  unfold dashes GroupedArrow.Covers
  by_cases hl : g.left = g.right
  · simp only [hl, ↓reduceIte, List.mem_map, List.mem_range'_1, Prod.mk.injEq]
    have : enterCol w g.right ≤ leaveCol w g.right := by unfold enterCol leaveCol; omega
    constructor
    · rintro ⟨y, h1, rfl, rfl⟩; exact ⟨⟨h1.1, by omega⟩, rfl⟩
    · rintro ⟨h1, rfl⟩; exact ⟨x, ⟨h1.1, by omega⟩, rfl, rfl⟩
  · simp only [hl, ↓reduceIte, List.mem_map, List.mem_range'_1, Prod.mk.injEq]
    constructor
    · rintro ⟨y, h1, rfl, rfl⟩; exact ⟨⟨h1.1, by omega⟩, rfl⟩
    · rintro ⟨h1, rfl⟩; exact ⟨x, ⟨h1.1, by omega⟩, rfl, rfl⟩

theorem head_covered {w : Nat} {g : GroupedArrow} (h : g.Oriented) : g.Covers w (g.head w).1 ∧
    (g.left ≠ g.right → (g.head w).1 < enterCol w g.right) ∧ (g.left = g.right → enterCol w g.left < (g.head w).1) := by
  have hs := Oriented.spot h
  have hle := Oriented.le h
  unfold GroupedArrow.Covers GroupedArrow.head
  by_cases hl : g.left = g.right
  · have hd := hs.2 hl
    simp only [hd, hl, ↓reduceIte]
    unfold enterCol leaveCol
    refine ⟨⟨by omega, by omega⟩, fun h => absurd rfl h, fun _ => by omega⟩
  · have hlt : g.left < g.right := by omega
    have hc := col_lt w hlt
    simp only [hl, ↓reduceIte]
    unfold enterCol leaveCol
    cases hd : g.direction with
    | left => exact ⟨by dsimp only; omega, fun _ => by dsimp only; omega, fun h => h.elim⟩
    | right => exact ⟨by dsimp only; omega, fun _ => by dsimp only; omega, fun h => h.elim⟩
    | spot => exact absurd (hs.1 hd) hl

theorem covers_lt {w n : Nat} {g : GroupedArrow} (h : g.Oriented) (hn : g.right < n) {x : Nat} (hx : g.Covers w x) : x < lineWidth w n := by
  have hle := Oriented.le h
  have hc := col_lt w hn
  unfold GroupedArrow.Covers at hx
  split at hx
  · rename_i e
    unfold leaveCol at hx
    unfold lineWidth
    rw [e] at hx
    omega
  · unfold enterCol at hx
    unfold lineWidth
    omega

/-- Two arrows of a level share at most a column that is no arrow head. -/
theorem covers_shared {w : Nat} {g g' : GroupedArrow} (h : g.Oriented) (h' : g'.Oriented) (hb : Before g.left g.right g'.left g'.right)
    {x : Nat} (hx : g.Covers w x) (hx' : g'.Covers w x) : x ≠ (g.head w).1 ∧ x ≠ (g'.head w).1 := by
  have hle := Oriented.le h
  have hle' := Oriented.le h'
  obtain ⟨hb1, hb2⟩ := hb
  obtain ⟨_, e1, e2⟩ := head_covered (w := w) h
  obtain ⟨_, e3, e4⟩ := head_covered (w := w) h'
  have hc := col_mono w hb1
  have hc0 := col_mono w hle
  unfold GroupedArrow.Covers at hx hx'
  by_cases hl : g.left = g.right
  · have := col_lt w (hb2 hl)
    rw [if_pos hl] at hx
    rw [hl] at hx
    split at hx'
    · unfold enterCol leaveCol at *; omega
    · unfold enterCol leaveCol at *; omega
  · have f1 := e1 hl
    rw [if_neg hl] at hx
    split at hx'
    · rename_i hl'
      have f4 := e4 hl'
      unfold enterCol leaveCol at *
      omega
    · unfold enterCol leaveCol at *
      omega

theorem head_mem {w : Nat} {g : GroupedArrow} {x : Nat} {c : Char} (h : g.Oriented) (hm : (x, c) ∈ topBytes w g) :
    g.Covers w x ∧ (c = '-' ∨ (x, c) = g.head w) := by
  rw [topBytes_eq h] at hm
  rcases List.mem_append.1 hm with hm | hm
  · obtain ⟨h1, h2⟩ := (mem_dashes h).1 hm
    exact ⟨h1, Or.inl h2⟩
  · rw [List.mem_singleton] at hm
    have := (head_covered (w := w) h).1
    rw [← hm] at this
    exact ⟨this, Or.inr hm⟩

theorem top_spec (w n : Nat) (here : List GroupedArrow) (hr : Row n here) (line : Str) (hline : line.length = lineWidth w n) :
    ∃ top, setBytes line (here.flatMap (topBytes w)) = some top ∧ top.length = lineWidth w n ∧
      (∀ g ∈ here, ∀ x, g.Covers w x → top[x]? = some (if x = (g.head w).1 then (g.head w).2 else '-')) ∧
      ∀ x, (∀ g ∈ here, ¬ g.Covers w x) → top[x]? = line[x]? := by
  have hin : ∀ y ∈ here.flatMap (topBytes w), ∃ g ∈ here, g.Covers w y.1 := by
    intro y hy
    obtain ⟨g, hg, hy⟩ := List.mem_flatMap.1 hy
    exact ⟨g, hg, (head_mem (hr.oriented g hg) (x := y.1) (c := y.2) hy).1⟩
  obtain ⟨top, h1, h2, h3, h4, _⟩ := setBytes_spec (here.flatMap (topBytes w)) line (by
    intro y hy
    obtain ⟨g, hg, h⟩ := hin y hy
    rw [hline]
    exact covers_lt (hr.oriented g hg) (hr.bound g hg) h)
  refine ⟨top, h1, by rw [h2, hline], ?_, ?_⟩
  · intro g hg x hx
    obtain ⟨pre, post, hpp⟩ := List.append_of_mem hg
    have hb : ∀ g' ∈ post, Before g.left g.right g'.left g'.right := by
      have := hr.before
      rw [hpp] at this
      exact (List.pairwise_cons.1 (List.pairwise_append.1 this).2.1).1
    have hpost : ∀ g' ∈ post, g' ∈ here := by
      intro g' hg'
      rw [hpp]
      exact List.mem_append_right _ (List.mem_cons_of_mem _ hg')
    have horg := hr.oriented g hg
    -- what later arrows write in this column
    have hlater : ∀ y ∈ post.flatMap (topBytes w), y.1 = x → x ≠ (g.head w).1 ∧ y.2 = '-' := by
      intro y hy hyx
      obtain ⟨g', hg', hy⟩ := List.mem_flatMap.1 hy
      have horg' := hr.oriented g' (hpost g' hg')
      obtain ⟨e1, e2⟩ := head_mem horg' (x := y.1) (c := y.2) hy
      rw [hyx] at e1 e2
      obtain ⟨e3, e4⟩ := covers_shared horg horg' (hb g' hg') hx e1
      refine ⟨e3, ?_⟩
      rcases e2 with e2 | e2
      · exact e2
      · exact absurd (congrArg Prod.fst e2) e4
    have hws : here.flatMap (topBytes w) = pre.flatMap (topBytes w) ++ (dashes w g ++ g.head w :: post.flatMap (topBytes w)) := by
      rw [hpp, List.flatMap_append, List.flatMap_cons, topBytes_eq horg]
      simp
    by_cases hxh : x = (g.head w).1
    · rw [if_pos hxh]
      refine h4 (pre.flatMap (topBytes w) ++ dashes w g) (post.flatMap (topBytes w)) x _ (by rw [hws, hxh]; simp) ?_
      intro y hy hyx
      exact absurd hxh (hlater y hy hyx).1
    · rw [if_neg hxh]
      have hmem : (x, '-') ∈ dashes w g := (mem_dashes horg).2 ⟨hx, rfl⟩
      obtain ⟨a, b, hab⟩ := List.append_of_mem hmem
      refine h4 (pre.flatMap (topBytes w) ++ a) (b ++ g.head w :: post.flatMap (topBytes w)) x _ (by rw [hws, hab]; simp) ?_
      intro y hy hyx
      rcases List.mem_append.1 hy with hy | hy
      · have : (y.1, y.2) ∈ dashes w g := by rw [hab]; exact List.mem_append_right _ (List.mem_cons_of_mem _ hy)
        exact ((mem_dashes horg).1 this).2
      · rcases List.mem_cons.1 hy with rfl | hy
        · exact absurd hyx.symm hxh
        · exact (hlater y hy hyx).2
  · intro x hx
    refine h3 x (fun y hy e => ?_)
    obtain ⟨g, hg, h⟩ := hin y hy
    exact hx g hg (e ▸ h)

/-- Vertical bars on a line. -/
theorem bars_spec (bars : List Nat) (line : Str) (h : ∀ b ∈ bars, b < line.length) :
    ∃ line', setBytes line (bars.map (fun b => (b, '|'))) = some line' ∧ line'.length = line.length ∧
      (∀ b ∈ bars, line'[b]? = some '|') ∧ (∀ x, x ∉ bars → line'[x]? = line[x]?) ∧ ∀ c ∈ line', c ∈ line ∨ c = '|' := by
  obtain ⟨line', h1, h2, h3, h4, h5⟩ := setBytes_spec (bars.map (fun b => (b, '|'))) line (by
    intro x hx
    obtain ⟨b, hb, rfl⟩ := List.mem_map.1 hx
    exact h b hb)
  refine ⟨line', h1, h2, ?_, ?_, ?_⟩
  · intro b hb
    obtain ⟨p, q, hpq⟩ := List.append_of_mem hb
    refine h4 (p.map (fun b => (b, '|'))) (q.map (fun b => (b, '|'))) b '|' (by rw [hpq]; simp) ?_
    intro x hx _
    obtain ⟨y, _, rfl⟩ := List.mem_map.1 hx
    rfl
  · intro x hx
    refine h3 x (fun y hy e => ?_)
    obtain ⟨b, hb, rfl⟩ := List.mem_map.1 hy
    exact hx (e ▸ hb)
  · intro c hc
    rcases h5 c hc with h6 | ⟨x, hx, h6⟩
    · exact Or.inl h6
    · obtain ⟨b, _, rfl⟩ := List.mem_map.1 hx
      exact Or.inr h6.symm

theorem mem_barsOf {w : Nat} {g : GroupedArrow} {x : Nat} : x ∈ barsOf w g ↔ g.Bar w x := by
  simp [barsOf, GroupedArrow.Bar, leftX_eq, rightX_eq]

theorem bar_lt {w n : Nat} {g : GroupedArrow} (h : g.Oriented) (hn : g.right < n) {x : Nat} (hx : g.Bar w x) : x < lineWidth w n := by
  have hle := Oriented.le h
  have h1 := col_lt w (lt_of_le_of_lt hle hn)
  have h2 := col_lt w hn
  rcases hx with rfl | rfl
  · unfold leaveCol lineWidth; omega
  · unfold enterCol lineWidth; omega

/-- The lines of a level before the labels are written. -/
theorem level_shapes (w n : Nat) (placed : List (PlacedArrow GroupedArrow)) (level : Nat) (bars : List Nat)
    (hr : Row n ((placed.filter (fun a => a.level = level)).map (·.arrow)))
    (hbars : ∀ x, x ∈ bars ↔ ∃ p ∈ placed, level < p.level ∧ p.arrow.Bar w x) (hlt : ∀ b ∈ bars, b < lineWidth w n) :
    ∃ top bot bars', levelLines w n placed level bars = (((placed.filter (fun a => a.level = level)).map (·.arrow)).foldlM (writeLabel w) bot).map
        (fun b => (top, b, bars')) ∧ UpperLine w n placed level top ∧
      (∀ x, x ∈ bars' ↔ ∃ p ∈ placed, level ≤ p.level ∧ p.arrow.Bar w x) ∧ (∀ b ∈ bars', b < lineWidth w n) ∧
      bot.length = lineWidth w n ∧ (∀ c ∈ bot, c.utf8Size = 1) ∧
      (∀ x ∈ bars', bot[x]? = some '|') ∧ ∀ x < lineWidth w n, x ∉ bars' → bot[x]? = some ' ' := by
  have hmem : ∀ g, g ∈ (placed.filter (fun a => a.level = level)).map (·.arrow) ↔ ∃ p ∈ placed, p.level = level ∧ p.arrow = g := by
    intro g
    simp only [List.mem_map, List.mem_filter, decide_eq_true_eq, and_assoc]
  generalize hhere : (placed.filter (fun a => a.level = level)).map (·.arrow) = here at hr hmem
  have hblank : (List.replicate (artWidth w n) ' ').length = lineWidth w n := by rw [List.length_replicate, artWidth_eq]
  have hnew : ∀ b ∈ here.flatMap (barsOf w), b < lineWidth w n := by
    intro b hb
    obtain ⟨g, hg, hb⟩ := List.mem_flatMap.1 hb
    exact bar_lt (hr.oriented g hg) (hr.bound g hg) (mem_barsOf.1 hb)
  obtain ⟨l1, a1, a2, a3, a4, a5⟩ := bars_spec bars (List.replicate (artWidth w n) ' ') (by rw [hblank]; exact hlt)
  rw [hblank] at a2
  obtain ⟨top, b1, b2, b3, b4⟩ := top_spec w n here hr l1 a2
  obtain ⟨bot, c1, c2, c3, c4, c5⟩ := bars_spec (here.flatMap (barsOf w)) l1 (by rw [a2]; exact hnew)
  have hblankat : ∀ x < lineWidth w n, (List.replicate (artWidth w n) ' ')[x]? = some ' ' := by
    intro x hx
    rw [List.getElem?_replicate, if_pos (by rw [artWidth_eq]; exact hx)]
  have hall : ∀ x, x ∈ bars ++ here.flatMap (barsOf w) ↔ ∃ p ∈ placed, level ≤ p.level ∧ p.arrow.Bar w x := by
    intro x
    rw [List.mem_append, hbars, List.mem_flatMap]
    constructor
    · rintro (⟨p, hp, h1, h2⟩ | ⟨g, hg, h1⟩)
      · exact ⟨p, hp, by omega, h2⟩
      · obtain ⟨p, hp, h2, rfl⟩ := (hmem g).1 hg
        exact ⟨p, hp, by omega, mem_barsOf.1 h1⟩
    · rintro ⟨p, hp, h1, h2⟩
      rcases Nat.lt_or_eq_of_le h1 with h3 | h3
      · exact Or.inl ⟨p, hp, h3, h2⟩
      · exact Or.inr ⟨p.arrow, (hmem _).2 ⟨p, hp, h3.symm, rfl⟩, mem_barsOf.2 h2⟩
  have hcov : ∀ x, (∀ p ∈ placed, p.level = level → ¬ p.arrow.Covers w x) → ∀ g ∈ here, ¬ g.Covers w x := by
    intro x h g hg
    obtain ⟨p, hp, h2, rfl⟩ := (hmem g).1 hg
    exact h p hp h2
  refine ⟨top, bot, bars ++ here.flatMap (barsOf w), ?_, ⟨b2, ?_, ?_, ?_⟩, hall, ?_, by rw [c2, a2], ?_, ?_, ?_⟩
  · unfold levelLines
    rw [hhere]
    simp only [a1, b1, c1, Option.bind_eq_bind, Option.bind_some]
    cases here.foldlM (writeLabel w) bot <;> rfl
  · intro p hp hl x hx
    exact b3 p.arrow ((hmem _).2 ⟨p, hp, hl, rfl⟩) x hx
  · intro x h1 h2
    rw [b4 x (hcov x h1)]
    exact a3 x ((hbars x).2 h2)
  · intro x hx h1 h2
    rw [b4 x (hcov x h1), a4 x, hblankat x hx]
    intro hb
    obtain ⟨p, hp, h3, h4⟩ := (hbars x).1 hb
    exact h2 p hp h3 h4
  · intro b hb
    rcases List.mem_append.1 hb with hb | hb
    · exact hlt b hb
    · exact hnew b hb
  · intro c hc
    have : c = ' ' ∨ c = '|' := by
      rcases c5 c hc with h | h
      · rcases a5 c h with h | h
        · exact Or.inl (List.eq_of_mem_replicate h)
        · exact Or.inr h
      · exact Or.inr h
    rcases this with rfl | rfl <;> decide
  · intro x hx
    by_cases h : x ∈ here.flatMap (barsOf w)
    · exact c3 x h
    · rw [c4 x h]
      rcases List.mem_append.1 hx with hx | hx
      · exact a3 x hx
      · exact absurd hx h
  · intro x hx h
    rw [List.mem_append, not_or] at h
    rw [c4 x h.2, a4 x h.1]
    exact hblankat x hx

theorem level_fit (w n : Nat) (placed : List (PlacedArrow GroupedArrow)) (level : Nat) (bars : List Nat)
    (hr : Row n ((placed.filter (fun a => a.level = level)).map (·.arrow))) (hf : ∀ p ∈ placed, p.arrow.Fits w)
    (hbars : ∀ x, x ∈ bars ↔ ∃ p ∈ placed, level < p.level ∧ p.arrow.Bar w x) (hlt : ∀ b ∈ bars, b < lineWidth w n) :
    ∃ top bot bars', levelLines w n placed level bars = some (top, bot, bars') ∧ UpperLine w n placed level top ∧
      LowerLine w n placed level bot ∧
      (∀ x, x ∈ bars' ↔ ∃ p ∈ placed, level ≤ p.level ∧ p.arrow.Bar w x) ∧ (∀ b ∈ bars', b < lineWidth w n) := by
  obtain ⟨top, bot, bars', h1, h2, h3, h4, h5, h6, h7, h8⟩ := level_shapes w n placed level bars hr hbars hlt
  have hmem : ∀ g, g ∈ (placed.filter (fun a => a.level = level)).map (·.arrow) ↔ ∃ p ∈ placed, p.level = level ∧ p.arrow = g := by
    intro g
    simp only [List.mem_map, List.mem_filter, decide_eq_true_eq, and_assoc]
  obtain ⟨bot', e1, e2, e3, e4⟩ := labels_fit w n _ bot 0 hr (by
    intro g hg
    obtain ⟨p, hp, _, rfl⟩ := (hmem g).1 hg
    exact hf p hp) h5 (by simpa using h6) (fun _ _ => Nat.zero_le _)
  rw [e1] at h1
  have hns : ∀ x, (∀ p ∈ placed, p.level = level → ∀ c, ¬ p.arrow.Shows w x c) → bot'[x]? = bot[x]? := by
    intro x h
    refine e4 x (fun g hg c => ?_)
    obtain ⟨p, hp, h2, rfl⟩ := (hmem g).1 hg
    exact h p hp h2 c
  refine ⟨top, bot', bars', h1, h2, ⟨e2, ?_, ?_, ?_⟩, h3, h4⟩
  · intro p hp hl x c hs
    exact e3 p.arrow ((hmem _).2 ⟨p, hp, hl, rfl⟩) x c hs
  · intro x hx hb
    rw [hns x hx]
    exact h7 x ((h3 x).2 hb)
  · intro x hx hn hb
    rw [hns x hn]
    refine h8 x hx (fun h => ?_)
    obtain ⟨p, hp, h9, h10⟩ := (h3 x).1 h
    exact hb p hp h9 h10

/-- All arrows of a picture. -/
structure Fine (n : Nat) (placed : List (PlacedArrow GroupedArrow)) : Prop where
  oriented : ∀ p ∈ placed, p.arrow.Oriented
  bound : ∀ p ∈ placed, p.arrow.right < n
  apart : placed.Pairwise (fun p q => p.level = q.level → Before p.arrow.left p.arrow.right q.arrow.left q.arrow.right)

theorem Fine.row {n : Nat} {placed : List (PlacedArrow GroupedArrow)} (h : Fine n placed) (level : Nat) :
    Row n ((placed.filter (fun a => a.level = level)).map (·.arrow)) := by
  have hmem : ∀ g, g ∈ (placed.filter (fun a => a.level = level)).map (·.arrow) → ∃ p ∈ placed, p.level = level ∧ p.arrow = g := by
    intro g
    simp only [List.mem_map, List.mem_filter, decide_eq_true_eq, and_assoc]
    exact id
  refine ⟨?_, ?_, ?_⟩
  · intro g hg
    obtain ⟨p, hp, _, rfl⟩ := hmem g hg
    exact h.oriented p hp
  · intro g hg
    obtain ⟨p, hp, _, rfl⟩ := hmem g hg
    exact h.bound p hp
  · rw [List.pairwise_map]
    have := h.apart.sublist (List.filter_sublist (l := placed) (p := fun a => decide (a.level = level)))
    refine this.imp_of_mem ?_
    intro a b ha hb hab
    rw [List.mem_filter, decide_eq_true_eq] at ha hb
    exact hab (ha.2.trans hb.2.symm)

theorem artLines_fit (w n : Nat) (placed : List (PlacedArrow GroupedArrow)) (hp : Fine n placed) (hf : ∀ p ∈ placed, p.arrow.Fits w) :
    ∀ (level : Nat) (bars : List Nat), (∀ x, x ∈ bars ↔ ∃ p ∈ placed, level ≤ p.level ∧ p.arrow.Bar w x) →
    (∀ b ∈ bars, b < lineWidth w n) → ∃ lines, artLines w n placed level bars = some lines ∧ LevelLines w n placed level lines
  | 0, _, _, _ => ⟨[], rfl, .zero⟩
  | level + 1, bars, h1, h2 => by
    obtain ⟨top, bot, bars', e1, e2, e3, e4, e5⟩ := level_fit w n placed level bars (hp.row level) hf
      (fun x => (h1 x).trans (by simp only [Nat.succ_le_iff])) h2
    obtain ⟨lines, f1, f2⟩ := artLines_fit w n placed hp hf level bars' e4 e5
    refine ⟨top :: bot :: lines, ?_, .succ e2 e3 f2⟩
    rw [artLines, e1]
    simp only [Option.bind_eq_bind, Option.bind_some, f1]
    rfl

theorem artLines_ascii (w n : Nat) (placed : List (PlacedArrow GroupedArrow)) (hp : Fine n placed)
    (ha : ∀ p ∈ placed, ∀ c ∈ p.arrow.written, c.utf8Size = 1) :
    ∀ (level : Nat) (bars : List Nat), (∀ x, x ∈ bars ↔ ∃ p ∈ placed, level ≤ p.level ∧ p.arrow.Bar w x) →
    (∀ b ∈ bars, b < lineWidth w n) → (artLines w n placed level bars = none ↔
      ∃ p ∈ placed, p.level < level ∧ p.arrow.left ≠ p.arrow.right ∧ lineWidth w n < leaveCol w p.arrow.left + 1 + p.arrow.written.length)
  | 0, _, _, _ => by simp [artLines]
  | level + 1, bars, h1, h2 => by
    obtain ⟨top, bot, bars', e1, _, e3, e4, e5, e6, _⟩ := level_shapes w n placed level bars (hp.row level)
      (fun x => (h1 x).trans (by simp only [Nat.succ_le_iff])) h2
    have hmem : ∀ g, g ∈ (placed.filter (fun a => a.level = level)).map (·.arrow) ↔ ∃ p ∈ placed, p.level = level ∧ p.arrow = g := by
      intro g
      simp only [List.mem_map, List.mem_filter, decide_eq_true_eq, and_assoc]
    have hl := labels_ascii w n ((placed.filter (fun a => a.level = level)).map (·.arrow)) bot (by
      intro g hg
      obtain ⟨p, hp, _, rfl⟩ := (hmem g).1 hg
      exact ha p hp) (by
      intro g hg
      exact lt_of_le_of_lt (Oriented.le ((hp.row level).oriented g hg)) ((hp.row level).bound g hg)) e5 e6
    rw [artLines, e1]
    cases hfold : ((placed.filter (fun a => a.level = level)).map (·.arrow)).foldlM (writeLabel w) bot with
    | none =>
      simp only [Option.map_none, Option.bind_eq_bind, Option.bind_none, true_iff]
      obtain ⟨g, hg, h3⟩ := hl.1 hfold
      obtain ⟨p, hp, h4, rfl⟩ := (hmem g).1 hg
      exact ⟨p, hp, by omega, h3⟩
    | some b =>
      simp only [Option.map_some, Option.bind_eq_bind, Option.bind_some]
      have ih := artLines_ascii w n placed hp ha level bars' e3 e4
      have hno : ¬ ∃ p ∈ placed, p.level = level ∧ p.arrow.left ≠ p.arrow.right ∧
          lineWidth w n < leaveCol w p.arrow.left + 1 + p.arrow.written.length := by
        rintro ⟨p, hp, h3, h4⟩
        have := hl.2 ⟨p.arrow, (hmem _).2 ⟨p, hp, h3, rfl⟩, h4⟩
        rw [this] at hfold
        cases hfold
      have : (artLines w n placed level bars').bind (fun rest => some (top :: b :: rest)) = none ↔
          artLines w n placed level bars' = none := by
        cases artLines w n placed level bars' <;> simp
      refine this.trans (ih.trans ?_)
      constructor
      · rintro ⟨p, hp, h3, h4⟩
        exact ⟨p, hp, by omega, h4⟩
      · rintro ⟨p, hp, h3, h4⟩
        rcases Nat.lt_succ_iff_lt_or_eq.1 h3 with h5 | h5
        · exact ⟨p, hp, h5, h4⟩
        · exact absurd ⟨p, hp, h5, h4⟩ hno

end Draw
end Dandy
