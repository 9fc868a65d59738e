import Verif.Proofs.DrawAscii
/-! # The whole picture -/

namespace Dandy
namespace Draw

theorem flatten_block {k : Nat} : ∀ (bs : List Str), (∀ b ∈ bs, b.length = k) → ∀ i b, bs[i]? = some b → ∀ t < k,
    bs.flatten[k * i + t]? = b[t]?
  | [], _, i, b, h, _, _ => by simp at h
  | b' :: bs, hk, 0, b, h, t, ht => by
    simp only [List.getElem?_cons_zero, Option.some.injEq] at h
    subst h
    rw [List.flatten_cons, Nat.mul_zero, Nat.zero_add, List.getElem?_append_left (by rw [hk b' List.mem_cons_self]; exact ht)]
  | b' :: bs, hk, i + 1, b, h, t, ht => by
    rw [List.getElem?_cons_succ] at h
    have hb := hk b' List.mem_cons_self
    have ih := flatten_block bs (fun b hb => hk b (List.mem_cons_of_mem _ hb)) i b h t ht
    rw [List.flatten_cons, List.getElem?_append_right (by rw [hb, Nat.mul_succ]; omega), hb]
    have : k * (i + 1) + t - k = k * i + t := by rw [Nat.mul_succ]; omega
    rw [this, ih]

theorem flatten_length {k : Nat} : ∀ (bs : List Str), (∀ b ∈ bs, b.length = k) → bs.flatten.length = k * bs.length
  | [], _ => by simp
  | b :: bs, hk => by
    rw [List.flatten_cons, List.length_append, hk b List.mem_cons_self, flatten_length bs (fun b hb => hk b (List.mem_cons_of_mem _ hb)),
      List.length_cons, Nat.mul_succ]
    omega

theorem pad_length {s : Str} {w : Nat} (h : s.length ≤ w) : (pad s w).length = w := by
  unfold pad
  split
  · rw [List.length_append, List.length_replicate]; omega
  · omega

theorem pad_name {s : Str} {w : Nat} {t : Nat} {c : Char} (h : s[t]? = some c) : (pad s w)[t]? = some c := by
  obtain ⟨ht, _⟩ := List.getElem?_eq_some_iff.1 h
  unfold pad
  split
  · rw [List.getElem?_append_left ht, h]
  · exact h

theorem pad_blank {s : Str} {w : Nat} {t : Nat} (h : s.length ≤ t) (ht : t < w) : (pad s w)[t]? = some ' ' := by
  unfold pad
  rw [if_pos (by omega), List.getElem?_append_right h, List.getElem?_replicate, if_pos (by omega)]

theorem stateText_eq (w : Nat) (s : State) : stateText w s = ['(', if s.accepting then '(' else ' ', ' '] ++ (pad s.name w ++
    [' ', if s.accepting then ')' else ' ', ')', ' ']) := by
  unfold stateText
  cases s.accepting <;> simp

theorem stateText_length {w : Nat} {s : State} (h : s.name.length ≤ w) : (stateText w s).length = w + 7 := by
  rw [stateText_eq]
  simp [pad_length h]

theorem stateLine_of {w : Nat} {states : List State} (h : ∀ s ∈ states, s.name.length ≤ w) : StateLine w states (lastLine w states) := by
  have hb : ∀ b ∈ states.map (stateText w), b.length = w + 7 := by
    intro b hb
    obtain ⟨s, hs, rfl⟩ := List.mem_map.1 hb
    exact stateText_length (h s hs)
  refine ⟨?_, rfl, ?_⟩
  · unfold lastLine
    rw [List.length_append, flatten_length _ hb, List.length_map]
    show 3 + _ = _
    omega
  · intro i s hs
    have hn := h s (List.mem_of_getElem? hs)
    have hat : ∀ t < w + 7, (lastLine w states)[(w + 7) * i + 3 + t]? = (stateText w s)[t]? := by
      intro t ht
      rw [← flatten_block (states.map (stateText w)) hb i (stateText w s) (by rw [List.getElem?_map, hs]; rfl) t ht]
      unfold lastLine
      rw [List.getElem?_append_right (by show 3 ≤ _; omega)]
      congr 1
      show _ - 3 = _
      omega
    have hname : ∀ t < w, (stateText w s)[3 + t]? = (pad s.name w)[t]? := by
      intro t ht
      rw [stateText_eq, List.getElem?_append_right (by show 3 ≤ _; omega)]
      rw [show 3 + t - ['(', if s.accepting then '(' else ' ', ' '].length = t by show 3 + t - 3 = t; omega]
      rw [List.getElem?_append_left (by rw [pad_length hn]; exact ht)]
    have hend : ∀ t < 4, (stateText w s)[3 + w + t]? = [' ', if s.accepting then ')' else ' ', ')', ' '][t]? := by
      intro t ht
      rw [stateText_eq, List.getElem?_append_right (by show 3 ≤ _; omega)]
      rw [show 3 + w + t - ['(', if s.accepting then '(' else ' ', ' '].length = w + t by show 3 + w + t - 3 = w + t; omega]
      rw [List.getElem?_append_right (by rw [pad_length hn]; omega), pad_length hn]
      congr 1
      omega
    have hstart : ∀ t < 3, (stateText w s)[t]? = ['(', if s.accepting then '(' else ' ', ' '][t]? := by
      intro t ht
      rw [stateText_eq, List.getElem?_append_left ht]
    refine ⟨?_, ?_, ?_, ?_, ?_, ?_, ?_, ?_, ?_⟩
    · intro t c hc
      obtain ⟨ht, _⟩ := List.getElem?_eq_some_iff.1 hc
      have := hat (3 + t) (by omega)
      rw [hname t (by omega), pad_name hc] at this
      rw [← this]; congr 1; omega
    · intro t h1 h2
      have := hat (3 + t) (by omega)
      rw [hname t h2, pad_blank h1 h2] at this
      rw [← this]; congr 1; omega
    · exact (hat 0 (by omega)).trans (hstart 0 (by omega))
    · exact (hat 1 (by omega)).trans (hstart 1 (by omega))
    · exact (hat 2 (by omega)).trans (hstart 2 (by omega))
    · have := (hat (3 + w + 0) (by omega)).trans (hend 0 (by omega))
      rw [show (w + 7) * i + 6 + w = (w + 7) * i + 3 + (3 + w + 0) by omega]; exact this
    · have := (hat (3 + w + 1) (by omega)).trans (hend 1 (by omega))
      rw [show (w + 7) * i + 6 + w + 1 = (w + 7) * i + 3 + (3 + w + 1) by omega]; exact this
    · have := (hat (3 + w + 2) (by omega)).trans (hend 2 (by omega))
      rw [show (w + 7) * i + 6 + w + 2 = (w + 7) * i + 3 + (3 + w + 2) by omega]; exact this
    · have := (hat (3 + w + 3) (by omega)).trans (hend 3 (by omega))
      rw [show (w + 7) * i + 6 + w + 3 = (w + 7) * i + 3 + (3 + w + 3) by omega]; exact this

theorem Longest.unique {states : List State} {w w' : Nat} (h : Longest states w) (h' : Longest states w') : w = w' := by
  obtain ⟨⟨s, hs, rfl⟩, h2⟩ := h
  obtain ⟨⟨s', hs', rfl⟩, h2'⟩ := h'
  exact Nat.le_antisymm (h2' s hs) (h2 s' hs')

theorem widest_longest {states : List State} (h : states ≠ []) : ∃ w, widest states = some w ∧ Longest states w := by
  unfold widest
  cases hm : (states.map (fun s => s.name.length)).max? with
  | none => rw [List.max?_eq_none_iff, List.map_eq_nil_iff] at hm; exact absurd hm h
  | some w =>
    obtain ⟨h1, h2⟩ := List.max?_eq_some_iff.1 hm
    obtain ⟨s, hs, rfl⟩ := List.mem_map.1 h1
    exact ⟨_, rfl, ⟨s, hs, rfl⟩, fun s' hs' => h2 _ (List.mem_map.2 ⟨s', hs', rfl⟩)⟩

/-- Labels lead to existing states. -/
def Inside (n : Nat) (ls : Nat → Nat → List Str) : Prop := ∀ i j, ls i j ≠ [] → i < n ∧ j < n

theorem dfa_inside {d : Dfa} (h : d.WF) : Inside d.states.length (dfaLabels d) := by
  intro i j hne
  unfold dfaLabels at hne
  split at hne
  · exact absurd rfl hne
  · rename_i s hs
    refine ⟨(List.getElem?_eq_some_iff.1 hs).1, ?_⟩
    obtain ⟨e, he⟩ := List.exists_mem_of_ne_nil _ hne
    obtain ⟨x, hx, rfl⟩ := List.mem_map.1 he
    rw [List.mem_filter, decide_eq_true_eq] at hx
    rw [← hx.2]
    exact h.targets s (List.mem_of_getElem? hs) _ (List.of_mem_zip hx.1).2

theorem nfa_inside {n : Nfa} (h : n.WF) : Inside n.states.length (nfaLabels n) := by
  intro i j hne
  unfold nfaLabels at hne
  split at hne
  · exact absurd rfl hne
  · rename_i s hs
    refine ⟨(List.getElem?_eq_some_iff.1 hs).1, ?_⟩
    have hms := List.mem_of_getElem? hs
    obtain ⟨e, he⟩ := List.exists_mem_of_ne_nil _ hne
    rcases List.mem_append.1 he with he | he
    · obtain ⟨x, hx, he⟩ := List.mem_flatMap.1 he
      have := (List.mem_replicate.1 he).1
      have hj : j ∈ x.2 := List.count_pos_iff.1 (Nat.pos_of_ne_zero this)
      exact h.targets s hms _ (List.of_mem_zip hx).2 j hj
    · have := (List.mem_replicate.1 he).1
      exact h.eps_targets s hms j (List.count_pos_iff.1 (Nat.pos_of_ne_zero this))

theorem ends_eq {g : GroupedArrow} (h : g.Oriented) :
    g.left = min g.source g.target ∧ g.right = max g.source g.target ∧ (g.left = g.right ↔ g.source = g.target) := by
  unfold GroupedArrow.Oriented at h
  unfold GroupedArrow.source GroupedArrow.target
  cases hd : g.direction <;> rw [hd] at h <;> simp [hd] <;> dsimp only at h <;> omega

theorem groups_fine {ls : Nat → Nat → List Str} {n : Nat} {gs : List GroupedArrow} {placed : List (PlacedArrow GroupedArrow)} {levels : Nat}
    (hg : Groups ls gs) (hi : Inside n ls) (hp : Placement GroupedArrow.left GroupedArrow.right gs placed levels) : Fine n placed := by
  have hm : ∀ p ∈ placed, p.arrow ∈ gs := fun p h => hp.each.mem_iff.1 (List.mem_map.2 ⟨p, h, rfl⟩)
  refine ⟨fun p h => hg.oriented _ (hm p h), fun p h => ?_, hp.apart⟩
  obtain ⟨h1, h2⟩ := hg.labels _ (hm p h)
  rw [h1] at h2
  obtain ⟨h3, h4⟩ := hi _ _ h2
  rw [(ends_eq (hg.oriented _ (hm p h))).2.1]
  omega

theorem layout_ok (ord : List GroupedArrow → List GroupedArrow) (as : List Arrow) {ls : Nat → Nat → List Str} (hg : Groups ls (groupArrows ord as)) :
    ∃ placed levels, layout ord as = some (placed, levels) ∧
      Placement GroupedArrow.left GroupedArrow.right (groupArrows ord as) placed levels := by
  unfold layout
  exact placeArrows_spec _ (fun g h => Oriented.le (hg.oriented g h))

theorem asciiArt_fit (ord : List GroupedArrow → List GroupedArrow) (states : List State) (as : List Arrow) {ls : Nat → Nat → List Str} {w : Nat}
    (hg : Groups ls (groupArrows ord as)) (hi : Inside states.length ls) (hw : Longest states w)
    (hf : ∀ i j, i ≠ j → ls i j ≠ [] → (List.intercalate c!", " (ls i j)).length + w + 2 ≤ (w + 7) * (max i j - min i j)) :
    ∃ art placed levels, asciiArt ord states as = some art ∧
      Placement GroupedArrow.left GroupedArrow.right (groupArrows ord as) placed levels ∧ Picture w states placed levels art := by
  obtain ⟨placed, levels, h1, h2⟩ := layout_ok ord as hg
  have hne : states ≠ [] := by
    obtain ⟨⟨s, hs, _⟩, _⟩ := hw
    exact List.ne_nil_of_mem hs
  obtain ⟨w', h3, h4⟩ := widest_longest hne
  obtain rfl := hw.unique h4
  have hm : ∀ p ∈ placed, p.arrow ∈ groupArrows ord as := fun p h => h2.each.mem_iff.1 (List.mem_map.2 ⟨p, h, rfl⟩)
  have hfit : ∀ p ∈ placed, p.arrow.Fits w := by
    intro p hp hlr
    obtain ⟨e1, e2, e3⟩ := ends_eq (hg.oriented _ (hm p hp))
    obtain ⟨e4, e5⟩ := hg.labels _ (hm p hp)
    have := hf p.arrow.source p.arrow.target (fun e => hlr (e3.2 e)) (e4 ▸ e5)
    unfold GroupedArrow.written
    rw [← e4, ← e1, ← e2, Nat.mul_sub] at this
    have hmono := col_mono w (Oriented.le (hg.oriented _ (hm p hp)))
    unfold leaveCol enterCol
    omega
  obtain ⟨lines, h5, h6⟩ := artLines_fit w states.length placed (groups_fine hg hi h2) hfit levels [] (by
    intro x
    constructor
    · intro h; cases h
    · rintro ⟨p, hp, h7, _⟩
      exact absurd (h2.below p hp) (by omega)) (by intro b hb; cases hb)
  refine ⟨_, placed, levels, ?_, h2, ⟨lines, lastLine w states, h6, stateLine_of hw.2, rfl⟩⟩
  unfold asciiArt
  simp only [h3, h1, Option.bind_eq_bind, Option.bind_some, h5]
  rfl

theorem mem_intercalate {sep : Str} {c : Char} : ∀ l : List Str, c ∈ List.intercalate sep l → (∃ e ∈ l, c ∈ e) ∨ c ∈ sep
  | [], h => by simp [List.intercalate] at h
  | [e], h => by
    simp [List.intercalate] at h
    exact Or.inl ⟨e, List.mem_cons_self, h⟩
  | e :: e' :: l, h => by
    rw [List.intercalate_cons_cons] at h
    rcases List.mem_append.1 h with h | h
    · rcases List.mem_append.1 h with h | h
      · exact Or.inl ⟨e, List.mem_cons_self, h⟩
      · exact Or.inr h
    · rcases mem_intercalate (e' :: l) h with ⟨x, hx, h⟩ | h
      · exact Or.inl ⟨x, List.mem_cons_of_mem _ hx, h⟩
      · exact Or.inr h

theorem asciiArt_ascii (ord : List GroupedArrow → List GroupedArrow) (states : List State) (as : List Arrow) {ls : Nat → Nat → List Str} {w : Nat}
    (hg : Groups ls (groupArrows ord as)) (hi : Inside states.length ls) (hw : Longest states w)
    (ha : ∀ i j, ∀ e ∈ ls i j, ∀ c ∈ e, c.utf8Size = 1) :
    asciiArt ord states as = none ↔ ∃ i j, i ≠ j ∧ ls i j ≠ [] ∧ (w + 7) * (states.length - min i j) < (List.intercalate c!", " (ls i j)).length + 2 := by
  obtain ⟨placed, levels, h1, h2⟩ := layout_ok ord as hg
  have hne : states ≠ [] := by
    obtain ⟨⟨s, hs, _⟩, _⟩ := hw
    exact List.ne_nil_of_mem hs
  obtain ⟨w', h3, h4⟩ := widest_longest hne
  obtain rfl := hw.unique h4
  have hm : ∀ p ∈ placed, p.arrow ∈ groupArrows ord as := fun p h => h2.each.mem_iff.1 (List.mem_map.2 ⟨p, h, rfl⟩)
  have hfine := groups_fine hg hi h2
  have hlines := artLines_ascii w states.length placed hfine (by
    intro p hp c hc
    unfold GroupedArrow.written at hc
    rcases mem_intercalate _ hc with ⟨e, he, hc⟩ | hc
    · rw [(hg.labels _ (hm p hp)).1] at he
      exact ha _ _ e he c hc
    · exact (by decide : ∀ c ∈ c!", ", c.utf8Size = 1) c hc) levels [] (by
    intro x
    constructor
    · intro h; cases h
    · rintro ⟨p, hp, h7, _⟩
      exact absurd (h2.below p hp) (by omega)) (by intro b hb; cases hb)
  have : asciiArt ord states as = none ↔ artLines w states.length placed levels [] = none := by
    unfold asciiArt
    simp only [h3, h1, Option.bind_eq_bind, Option.bind_some]
    cases artLines w states.length placed levels [] <;> simp
  rw [this, hlines]
  constructor
  · rintro ⟨p, hp, _, h5, h6⟩
    obtain ⟨e1, e2, e3⟩ := ends_eq (hg.oriented _ (hm p hp))
    obtain ⟨e4, e5⟩ := hg.labels _ (hm p hp)
    refine ⟨p.arrow.source, p.arrow.target, fun e => h5 (e3.2 e), e4 ▸ e5, ?_⟩
    rw [← e1, ← e4, Nat.mul_sub]
    unfold GroupedArrow.written lineWidth leaveCol at h6
    have := col_mono w (Nat.le_of_lt (lt_of_le_of_lt (Oriented.le (hfine.oriented p hp)) (hfine.bound p hp)))
    omega
  · rintro ⟨i, j, h5, h6, h7⟩
    obtain ⟨g, hgm, rfl, rfl⟩ := hg.all i j h6
    obtain ⟨p, hp, rfl⟩ := List.mem_map.1 (h2.each.mem_iff.2 hgm)
    obtain ⟨e1, e2, e3⟩ := ends_eq (hg.oriented _ hgm)
    obtain ⟨e4, e5⟩ := hg.labels _ hgm
    refine ⟨p, hp, h2.below p hp, fun e => h5 (e3.1 e), ?_⟩
    rw [← e1, ← e4, Nat.mul_sub] at h7
    unfold GroupedArrow.written lineWidth leaveCol
    have := col_mono w (Nat.le_of_lt (lt_of_le_of_lt (Oriented.le (hfine.oriented p hp)) (hfine.bound p hp)))
    omega

end Draw
end Dandy
