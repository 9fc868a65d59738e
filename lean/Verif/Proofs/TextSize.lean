import Verif.Proofs.RegexSize
import Verif.Proofs.TableAlign
import Verif.Proofs.Graphemes
/-! # The lengths of the texts that are written -/

namespace Dandy
open RegexParser P RegexTree

/-! ## Regular expressions -/

/-- `n` characters are few enough for the text `u`, with `a` to spare. -/
def Short (u : Str) (n a : Nat) : Prop := ∃ x, n ≤ x * 2 ^ u.count '+' ∧ x + a ≤ 2 * u.length + 1

theorem Short.mono {u v : Str} {n m a b : Nat} (h : Short u n a) (d : Nat) (hm : m ≤ n + d) (hc : u.count '+' ≤ v.count '+')
    (hl : d + 2 * u.length + b ≤ 2 * v.length + a) : Short v m b := by
  obtain ⟨x, h1, h2⟩ := h
  refine ⟨x + d, ?_, by omega⟩
  have h3 : (2 : Nat) ^ u.count '+' ≤ 2 ^ v.count '+' := Nat.pow_le_pow_right (by omega) hc
  have h4 : x * 2 ^ u.count '+' ≤ x * 2 ^ v.count '+' := Nat.mul_le_mul_left _ h3
  have h5 : d * 1 ≤ d * 2 ^ v.count '+' := Nat.mul_le_mul_left _ (Nat.pow_pos (by omega))
  rw [Nat.add_mul]; omega

theorem Short.append {u v : Str} {n m a b : Nat} (h : Short u n (a + 1)) (h' : Short v m b) : Short (u ++ v) (n + m) (a + b) := by
  obtain ⟨x, h1, h2⟩ := h
  obtain ⟨y, h3, h4⟩ := h'
  refine ⟨x + y, ?_, by rw [List.length_append]; omega⟩
  rw [List.count_append, Nat.add_mul]
  refine Nat.add_le_add (h1.trans (Nat.mul_le_mul_left _ ?_)) (h3.trans (Nat.mul_le_mul_left _ ?_)) <;>
    exact Nat.pow_le_pow_right (by omega) (by omega)

/-- What is parsed is written with few characters. -/
def Brief (p : P RegexTree) (a : Nat) : Prop := ∀ s t r, p s = some (t, r) → ∃ u, s = u ++ r ∧ Short u (toText t).length a

variable {cl : Str → Nat}

private theorem short_self {u : Str} {n : Nat} (h : n ≤ u.length) (hu : u ≠ []) : Short u n 2 := by
  have h1 := List.length_pos_iff.2 hu
  refine ⟨u.length, h.trans (Nat.le_mul_of_pos_right _ (Nat.pow_pos (by omega))), by omega⟩

theorem regexChar_brief (h : Segmentation cl) {s r : Str} {c : RegexChar} (hs : regexChar cl s = some (c, r)) :
    ∃ u, s = u ++ r ∧ Short u (toText (.chr c)).length 2 := by
  have hc := regexChar_consumes h _ _ _ hs
  have key : ∃ u, s = u ++ r ∧ (toText (.chr c)).length ≤ u.length := by
    unfold regexChar at hs
    rcases alt_some.1 hs with h1 | ⟨_, hs⟩
    · obtain ⟨a, h2, rfl⟩ := value_some.1 h1
      obtain ⟨h3, rfl⟩ := oneOf_some.1 h2
      exact ⟨[a], rfl, by rw [toText]; rfl⟩
    rcases alt_some.1 hs with h1 | ⟨_, hs⟩
    · obtain ⟨a, h2, rfl⟩ := value_some.1 h1
      obtain ⟨h3, rfl⟩ := oneOf_some.1 h2
      exact ⟨[a], rfl, by rw [toText]; rfl⟩
    rcases alt_some.1 hs with h1 | ⟨_, hs⟩
    · obtain ⟨a, m, h2, h3⟩ := preceded_some.1 h1
      obtain ⟨h4, rfl⟩ := oneOf_some.1 h2
      obtain ⟨h5, rfl, rfl⟩ := oneCluster_some.1 h3
      refine ⟨a :: m.take (cl m), by simp, ?_⟩
      rw [toText]
      unfold graphemeText
      split <;> simp only [List.length_cons] <;> omega
    · obtain ⟨h1, h2⟩ := verify_some.1 hs
      obtain ⟨h5, rfl, rfl⟩ := oneCluster_some.1 h1
      refine ⟨s.take (cl s), by simp, ?_⟩
      simp only [Bool.not_eq_true'] at h2
      rw [toText]
      unfold graphemeText
      rw [if_neg]
      rintro hh
      rw [Bool.and_eq_true] at hh
      unfold isReservedChar at h2
      cases hg : s.take (cl s) with
      | nil => rw [hg] at hh; simp [byteLen] at hh
      | cons a g =>
        rw [hg] at hh h2
        simp only [List.headD_cons] at hh h2
        rw [h2] at hh
        simp at hh
  obtain ⟨u, rfl, h1⟩ := key
  refine ⟨u, rfl, short_self h1 ?_⟩
  rintro rfl
  simp at hc

theorem itemP_brief (h : Segmentation cl) {e : P RegexTree} (he : Brief e 0) : Brief (itemP cl e) 1 := by
  intro s t r hs
  rw [itemP_eq] at hs
  obtain ⟨⟨t', o⟩, h1, rfl⟩ := map_some.1 hs
  obtain ⟨m, h2, h3⟩ := pair_some.1 h1
  have ha : ∃ u, s = u ++ m ∧ Short u (toText t').length 2 := by
    rcases alt_some.1 h2 with h4 | ⟨_, h4⟩
    · obtain ⟨a, c, m1, m2, h5, h6, h7⟩ := delimited_some.1 h4
      obtain ⟨h8, rfl⟩ := oneOf_some.1 h5
      obtain ⟨h9, rfl⟩ := oneOf_some.1 h7
      obtain ⟨u, rfl, hu⟩ := he _ _ _ h6
      refine ⟨a :: (u ++ [c]), by simp, hu.mono 0 (Nat.le_refl _) ?_ (by simp; omega)⟩
      rw [List.count_cons, List.count_append]; omega
    · obtain ⟨c, h5, rfl⟩ := map_some.1 h4
      exact regexChar_brief h h5
  obtain ⟨u, rfl, hu⟩ := ha
  rcases opt_some.1 h3 with ⟨c, h4, h5⟩ | ⟨h4, rfl, _⟩
  · simp only at h4
    subst h4
    obtain ⟨h6, rfl⟩ := oneOf_some.1 h5
    simp only [List.mem_cons, List.not_mem_nil, or_false] at h6
    refine ⟨u ++ [c], by simp, ?_⟩
    rcases h6 with rfl | rfl
    · have : applyKleene (t', some '+') = .seq [t', .rep t'] := rfl
      rw [this, toText, seqText, seqText, seqText, toText]
      obtain ⟨x, h7, h8⟩ := hu
      refine ⟨x + 2, ?_, by simp; omega⟩
      have e : (u ++ ['+']).count '+' = u.count '+' + 1 := by simp
      rw [e, Nat.pow_succ, Nat.add_mul, ← Nat.mul_assoc]
      have := Nat.pow_pos (n := u.count '+') (show 0 < 2 by omega)
      simp only [List.length_append, List.length_cons, List.length_nil]
      omega
    · have : applyKleene (t', some '*') = .rep t' := rfl
      rw [this, toText]
      exact hu.mono 3 (by simp) (by simp) (by simp; omega)
  · simp only at h4
    subst h4
    exact ⟨u, rfl, hu.mono 0 (by simp [applyKleene]) (Nat.le_refl _) (by omega)⟩

theorem chain_brief {p : P RegexTree} (hp : Brief p 1) {s r : Str} {ts : List RegexTree} (hc : Chain p s ts r) :
    ∃ u, s = u ++ r ∧ Short u (seqText ts).length 1 := by
  induction hc with
  | nil => exact ⟨[], rfl, 0, by rw [seqText]; simp, by simp⟩
  | cons h1 _ ih =>
    obtain ⟨u, rfl, hu⟩ := hp _ _ _ h1
    obtain ⟨v, rfl, hv⟩ := ih
    refine ⟨u ++ v, by simp, ?_⟩
    rw [seqText, List.length_append]
    simpa using Short.append (a := 0) hu hv

theorem sequence_brief (h : Segmentation cl) {e : P RegexTree} (hce : Consumes e) (he : Brief e 0) : Brief (sequence cl e) 1 := by
  intro s t r hs
  obtain ⟨ts, h1, rfl⟩ := map_some.1 hs
  obtain ⟨hne, hc, _⟩ := (many1_iff (itemP_consumes h hce)).1 h1
  obtain ⟨u, h2, h3⟩ := chain_brief (itemP_brief h he) hc
  refine ⟨u, h2, ?_⟩
  match ts, hne with
  | [t], _ =>
    rw [seqText, seqText, List.append_nil] at h3; exact h3
  | t :: t' :: ts, _ =>
    have : wrapMultiple .seq (t :: t' :: ts) = .seq (t :: t' :: ts) := by unfold wrapMultiple; simp
    rw [this, toText]
    exact h3

theorem altRest_brief {q : P RegexTree} (hq : Brief q 1) {s r : Str} {ts : List RegexTree} (hc : Chain (preceded (oneOf ['|']) q) s ts r) :
    ∃ u, s = u ++ r ∧ Short u (altRest ts).length (1 + ts.length) := by
  induction hc with
  | nil => exact ⟨[], rfl, 0, by rw [altRest]; simp, by simp⟩
  | cons h1 _ ih =>
    obtain ⟨b, m1, h5, h6⟩ := preceded_some.1 h1
    obtain ⟨h7, rfl⟩ := oneOf_some.1 h5
    obtain ⟨u, rfl, hu⟩ := hq _ _ _ h6
    obtain ⟨v, rfl, hv⟩ := ih
    have hb : Short (b :: u) ((toText _).length + 1) (1 + 1) := hu.mono 1 (Nat.le_refl _) (by rw [List.count_cons]; omega) (by simp; omega)
    refine ⟨b :: u ++ v, by simp, ?_⟩
    rw [altRest]
    exact (hb.append hv).mono 0 (by simp; omega) (Nat.le_refl _) (by simp only [List.length_cons]; omega)

theorem expression_brief (h : Segmentation cl) : ∀ d, Brief (expression cl d) 0
  | 0 => fun _ _ _ hs => by cases hs
  | d + 1 => by
    intro s t r hs
    obtain ⟨ts, h1, rfl⟩ := map_some.1 hs
    have hce := expression_consumes h d
    have hq := sequence_brief h hce (expression_brief h d)
    obtain ⟨a, as, m, rfl, h2, h3, _⟩ := (separatedList1_iff (oneOf_consumes _) (sequence_consumes h hce).shrinks).1 h1
    obtain ⟨u, rfl, hu⟩ := hq _ _ _ h2
    cases as with
    | nil =>
      cases h3
      exact ⟨u, rfl, hu.mono 0 (by simp [wrapMultiple]) (Nat.le_refl _) (by omega)⟩
    | cons a' as =>
      obtain ⟨v, rfl, hv⟩ := altRest_brief hq h3
      refine ⟨u ++ v, by simp, ?_⟩
      have : wrapMultiple .alt (a :: a' :: as) = .alt (a :: a' :: as) := by unfold wrapMultiple; simp
      rw [this, toText, altText]
      exact (Short.append (a := 0) hu hv).mono 2 (by simp; omega) (by omega) (by simp only [List.length_cons]; omega)

mutual
theorem text_ge : ∀ t : RegexTree, (∀ g ∈ t.graphemes, g ≠ []) → t.graphemes.length ≤ (toText t).length
  | .seq ts, h => by rw [graphemes] at *; rw [toText]; exact seqText_ge ts h
  | .alt ts, h => by
    rw [graphemes] at *
    rw [toText]
    have := altText_ge ts h
    simp only [List.length_append]; omega
  | .rep t, h => by
    rw [graphemes] at *
    rw [toText]
    have := text_ge t h
    simp only [List.length_append]; omega
  | .chr (.grapheme g), h => by
    rw [graphemes] at *
    rw [toText]
    have := List.length_pos_iff.2 (h g (by simp))
    unfold graphemeText
    split <;> simp only [List.length_cons, List.length_nil] <;> omega
  | .chr .epsilon, _ => by rw [graphemes]; simp
  | .chr .empty, _ => by rw [graphemes]; simp
theorem seqText_ge : ∀ ts : List RegexTree, (∀ g ∈ graphemesList ts, g ≠ []) → (graphemesList ts).length ≤ (seqText ts).length
  | [], _ => by rw [graphemesList]; simp
  | t :: ts, h => by
    rw [graphemesList] at *
    rw [seqText, List.length_append, List.length_append]
    exact Nat.add_le_add (text_ge t (fun g hg => h g (List.mem_append_left _ hg))) (seqText_ge ts (fun g hg => h g (List.mem_append_right _ hg)))
theorem altText_ge : ∀ ts : List RegexTree, (∀ g ∈ graphemesList ts, g ≠ []) → (graphemesList ts).length ≤ (altText ts).length
  | [], _ => by rw [graphemesList]; simp
  | t :: ts, h => by
    rw [graphemesList] at *
    rw [altText, List.length_append, List.length_append]
    exact Nat.add_le_add (text_ge t (fun g hg => h g (List.mem_append_left _ hg))) (altRest_ge ts (fun g hg => h g (List.mem_append_right _ hg)))
theorem altRest_ge : ∀ ts : List RegexTree, (∀ g ∈ graphemesList ts, g ≠ []) → (graphemesList ts).length ≤ (altRest ts).length
  | [], _ => by rw [graphemesList]; simp
  | t :: ts, h => by
    rw [graphemesList] at *
    rw [altRest, List.length_append, List.length_append, List.length_append]
    have := text_ge t (fun g hg => h g (List.mem_append_left _ hg))
    have := altRest_ge ts (fun g hg => h g (List.mem_append_right _ hg))
    omega
end

/-! ## Tables -/

/-- Every width is at most the bound of its column. -/
def Within (ws bs : List Nat) : Prop := ∀ (j : Nat) w, ws[j]? = some w → ∃ b, bs[j]? = some b ∧ w ≤ b

theorem within_zipMax : ∀ (ls : List Nat) (ss : List Str) (bs : List Nat), Within ls bs → Covers bs ss → Within (Table.zipMax ls ss) bs
  | [], ss, bs, h, _ => by cases ss <;> exact h
  | l :: ls, [], bs, h, _ => h
  | l :: ls, s :: ss, [], h, _ => by obtain ⟨b, h1, _⟩ := h 0 l rfl; simp at h1
  | l :: ls, s :: ss, b :: bs, h, hc => by
    have ih := within_zipMax ls ss bs (fun j w hj => by simpa using h (j + 1) w (by simpa using hj))
      (fun j c hj => by simpa using hc (j + 1) c (by simpa using hj))
    rw [Table.zipMax]
    intro j w hj
    cases j with
    | zero =>
      obtain ⟨b1, h1, h2⟩ := h 0 l rfl
      obtain ⟨b2, h3, h4⟩ := hc 0 s rfl
      cases h1; cases h3
      cases hj
      exact ⟨b, rfl, by omega⟩
    | succ j => simpa using ih j w (by simpa using hj)

theorem within_pushRow {t : Table} {row : List Str} {bs : List Nat} (h : Within t.rowLen bs) (hc : Covers bs row) : Within (t.pushRow row).rowLen bs := by
  unfold Table.pushRow
  refine within_zipMax _ _ _ ?_ hc
  intro j w hj
  split at hj
  · by_cases hlt : j < t.rowLen.length
    · rw [List.getElem?_append_left hlt] at hj
      exact h j w hj
    · rw [List.getElem?_append_right (by omega)] at hj
      obtain ⟨h1, h2⟩ := List.getElem?_eq_some_iff.1 hj
      simp only [List.length_replicate] at h1
      simp only [List.getElem_replicate] at h2
      obtain ⟨b, h3, _⟩ := hc j row[j] (List.getElem?_eq_getElem (by omega))
      exact ⟨b, h3, by omega⟩
  · exact h j w hj

theorem within_foldl {bs : List Nat} (rows : List (List Str)) : ∀ t : Table, Within t.rowLen bs → (∀ r ∈ rows, Covers bs r) →
    Within (rows.foldl Table.pushRow t).rowLen bs := by
  induction rows with
  | nil => intro t h _; exact h
  | cons r rows ih =>
    intro t h hr
    exact ih _ (within_pushRow h (hr r (by simp))) (fun r' h' => hr r' (by simp [h']))

theorem rowString_length : ∀ (ws : List Nat) (row : List Str) (bs : List Nat), Within ws bs → Covers bs row →
    (Table.rowString ws [' '] row).length ≤ (bs.map (· + 1)).sum
  | [], row, bs, _, _ => by simp [Table.rowString]
  | w :: ws, [], bs, _, _ => by simp [Table.rowString]
  | w :: ws, c :: row, [], h, _ => by obtain ⟨b, h1, _⟩ := h 0 w rfl; simp at h1
  | w :: ws, c :: row, b :: bs, h, hc => by
    have ih := rowString_length ws row bs (fun j w hj => by simpa using h (j + 1) w (by simpa using hj))
      (fun j c hj => by simpa using hc (j + 1) c (by simpa using hj))
    obtain ⟨b1, h1, h2⟩ := h 0 w rfl
    obtain ⟨b2, h3, h4⟩ := hc 0 c rfl
    cases h1; cases h3
    rw [rowString_cons]
    simp only [List.length_append, List.length_replicate, List.length_cons, List.length_nil, List.map_cons, List.sum_cons]
    omega

theorem intercalate_length {B : Nat} : ∀ (ls : List Str), (∀ l ∈ ls, l.length ≤ B) → (List.intercalate ['\n'] ls).length ≤ ls.length * (B + 1)
  | [], _ => by simp [List.intercalate]
  | [l], h => by have := h l (by simp); simp [List.intercalate]; omega
  | l :: l' :: ls, h => by
    have ih := intercalate_length (l' :: ls) (fun x hx => h x (by simp [hx]))
    have := h l (by simp)
    rw [intercalate_cons_cons]
    simp only [List.length_append, List.length_cons, List.length_nil] at *
    rw [Nat.add_mul]
    omega

theorem table_length {rows : List (List Str)} {bs : List Nat} (hr : ∀ r ∈ rows, Covers bs r) {t : Str}
    (ht : (rows.foldl Table.pushRow Table.empty).toString [' '] = some t) : t.length ≤ rows.length * ((bs.map (· + 1)).sum + 1) := by
  have hw := within_foldl rows Table.empty (bs := bs) (by intro j w h; simp [Table.empty] at h) hr
  have hrows : (rows.foldl Table.pushRow Table.empty).rows = rows := by rw [foldl_pushRow_rows]; simp [Table.empty]
  generalize rows.foldl Table.pushRow Table.empty = T at *
  unfold Table.toString at ht
  split at ht
  · cases ht
  rename_i hne
  cases ht
  rw [hrows]
  have h2 : Within T.widths bs ∨ rows = [] := by
    by_cases hrn : rows = []
    · exact Or.inr hrn
    left
    rw [hrows] at hne
    have hpos : T.rowLen ≠ [] := by
      intro h0
      rw [h0] at hne
      cases rows <;> simp at *
    have hl := List.length_pos_iff.2 hpos
    unfold Table.widths
    intro j w hj
    by_cases hlt : j < T.rowLen.length - 1
    · rw [List.getElem?_append_left (by simp; omega), List.getElem?_take_of_lt hlt] at hj
      exact hw j w hj
    · have h1 := (List.getElem?_eq_some_iff.1 hj).1
      simp only [List.length_append, List.length_take, List.length_singleton] at h1
      have hj2 : j = T.rowLen.length - 1 := by omega
      rw [List.getElem?_append_right (by simp; omega)] at hj
      have h3 : w = 0 := by
        obtain ⟨h4, h5⟩ := List.getElem?_eq_some_iff.1 hj
        simp at h5; omega
      obtain ⟨b, h4, _⟩ := hw j T.rowLen[j] (List.getElem?_eq_getElem (by omega))
      exact ⟨b, h4, by omega⟩
  rcases h2 with h2 | rfl
  · have := intercalate_length (B := (bs.map (· + 1)).sum) (rows.map (Table.rowString T.widths [' '])) (by
      intro l hl
      obtain ⟨r, h3, rfl⟩ := List.mem_map.1 hl
      exact rowString_length _ _ _ h2 (hr r h3))
    rwa [List.length_map] at this
  · simp [List.intercalate]

end Dandy
