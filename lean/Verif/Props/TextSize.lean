import Verif.Model.Chars
import Verif.Proofs.TextSize
import Verif.Proofs.ConvCost
import Verif.Props.Sizes
import Verif.Props.ParseDepth
import Verif.Props.Tables
import Verif.Props.Draw
/-! # C99: how long the texts are that are written, and how much work `to_nfa` is -/

namespace Dandy
open Samples RegexParser P RegexTree

/-! ## Regular expressions as text -/

/-- **C99** The text that `to_string` writes for a parsed expression is at most twice as long as what was parsed, and one more, times `2` for every `+`. -/
theorem C99_to_string (cl : Str → Nat) (h : Segmentation cl) (text core : Str) (ht : Trimmed text core) (t : RegexTree)
    (hp : regex cl text = some t) : (toText t).length ≤ (2 * core.length + 1) * 2 ^ core.count '+' := by
  obtain ⟨u, h1, x, h2, h3⟩ := expression_brief h _ _ _ _ ((regex_some ht).1 hp)
  rw [List.append_nil] at h1
  subst h1
  exact h2.trans (Nat.mul_le_mul_right _ (by omega))

/-- **C99** Without `+` at most twice as long, and one more. With `+` there is no such bound, see `C99_to_string_exponential`. -/
theorem C99_to_string_linear (cl : Str → Nat) (h : Segmentation cl) (text core : Str) (ht : Trimmed text core) (t : RegexTree)
    (hp : regex cl text = some t) (hplus : '+' ∉ core) : (toText t).length ≤ 2 * core.length + 1 := by
  have h1 := C99_to_string cl h text core ht t hp
  rwa [List.count_eq_zero.2 hplus, Nat.pow_zero, Nat.mul_one] at h1

/-- The bound is reached; leading and trailing white space does not count. -/
example : (regex cl1 c!" a*|a* ").map toText = some c!"((a)*|(a)*)" ∧ c!"((a)*|(a)*)".length = 2 * c!"a*|a*".length + 1 ∧
    Trimmed c!" a*|a* " c!"a*|a*" ∧ '+' ∉ c!"a*|a*" := by
  refine ⟨by decide +kernel, by decide, ⟨[' '], [' '], rfl, by decide, by decide, by decide, by decide⟩, by decide⟩
example : (regex cl1 c!"(ab)+").map toText = some c!"ab(ab)*" := by decide +kernel

/-- **C99** With `+` the text can be exponentially longer: `k` nested `+` in a text of `3k + 1` characters are written with at least `2^k`. -/
theorem C99_to_string_exponential (cl : Str → Nat) (h : Segmentation cl) (hcl : LettersApart cl) (k : Nat) :
    (nestedPlus k).length = 3 * k + 1 ∧ ∃ t, regex cl (nestedPlus k) = some t ∧ 2 ^ k ≤ (toText t).length := by
  obtain ⟨h1, t, h2, h3, _⟩ := C83_regex_linear_false cl h hcl k
  refine ⟨h1, t, h2, ?_⟩
  rw [← h3]
  refine text_ge t (expression_allG h (Q := fun g => g ≠ []) ?_ _ _ _ _ ((regex_some (trimmed_trim _)).1 h2))
  intro s hs he
  have := h.pos s hs
  rw [List.take_eq_nil_iff] at he
  rcases he with he | he
  · omega
  · exact hs he

example : (regex cl1 (nestedPlus 3)).map (fun t => (toText t).length) = some 29 ∧ (nestedPlus 3).length = 10 := by decide +kernel

/-! ## Tables -/

private theorem covers_cons {b : Nat} {bs : List Nat} {c : Str} {cs : List Str} (h1 : c.length ≤ b) (h2 : Covers bs cs) : Covers (b :: bs) (c :: cs) := by
  intro j x hj
  cases j with
  | zero => cases hj; exact ⟨b, rfl, h1⟩
  | succ j => simpa using h2 j x (by simpa using hj)

private theorem covers_replicate {k b : Nat} {cs : List Str} (hk : cs.length ≤ k) (h : ∀ c ∈ cs, c.length ≤ b) : Covers (List.replicate k b) cs := by
  intro j x hj
  have := (List.getElem?_eq_some_iff.1 hj).1
  exact ⟨b, List.getElem?_replicate_of_lt (by omega), h x (List.mem_of_getElem? hj)⟩

private theorem dfa_table {d : Dfa} (h : d.WF) {W : Nat} (hn : ∀ s ∈ d.states, s.name.length ≤ W) (ha : ∀ e ∈ d.alphabet, e.length ≤ W)
    {arrow t : Str} (harr : arrow.length ≤ 2) (ht : d.genTable arrow = some t) :
    t.length ≤ (d.states.length + 1) * ((d.alphabet.length + 1) * (W + 1) + 6) := by
  unfold Dfa.genTable at ht
  split at ht
  · cases ht
  rename_i rows hrows
  have hF := mapM_iff.1 hrows
  have h1 := table_length (rows := ([[], [], []] ++ d.alphabet) :: rows) (bs := [2, 1, W] ++ List.replicate d.alphabet.length W) (by
    intro r hr
    rcases List.mem_cons.1 hr with rfl | hr
    · exact covers_cons (by simp) (covers_cons (by simp) (covers_cons (by simp) (covers_replicate (Nat.le_refl _) ha)))
    · obtain ⟨i, hi⟩ := List.mem_iff_getElem?.1 hr
      obtain ⟨s, hs, h2⟩ := forall₂_at' hF hi
      have hsm := List.mem_of_getElem? hs
      unfold Dfa.tableRow at h2
      cases hx : namesOf (fun s : DfaState => s.name) d.states s.transitions with
      | none => rw [hx] at h2; cases h2
      | some ns =>
        rw [hx] at h2
        cases h2
        have h3 := namesOf_iff.1 hx
        refine covers_cons ?_ (covers_cons ?_ (covers_cons (hn s hsm) (covers_replicate (cs := ns) ?_ ?_)))
        · split <;> simp [harr]
        · split <;> simp
        · rw [← h3.length_eq, h.row_len s hsm]
        · intro c hc
          obtain ⟨i, hi⟩ := List.mem_iff_getElem?.1 hc
          obtain ⟨q, _, st, h4, rfl⟩ := forall₂_at' h3 hi
          exact hn st (List.mem_of_getElem? h4)) ht
  rw [List.length_cons, ← hF.length_eq] at h1
  refine h1.trans (Nat.mul_le_mul_left _ ?_)
  simp only [List.map_append, List.map_cons, List.map_nil, List.map_replicate, List.sum_append, List.sum_cons, List.sum_nil, List.sum_replicate_nat,
    Nat.add_mul]
  omega

/-- **C99** The table of a valid DFA with `n` states and `k` elements whose names and elements have at most `W` characters has at most
`(n + 1) * ((k + 1) * (W + 1) + 6)` characters, with either kind of arrow. -/
theorem C99_dfa_table (d : Dfa) (h : d.WF) (W : Nat) (hn : ∀ s ∈ d.states, s.name.length ≤ W) (ha : ∀ e ∈ d.alphabet, e.length ≤ W) :
    ∃ t u, d.toTable = some t ∧ d.asciiTable = some u ∧ t.length ≤ (d.states.length + 1) * ((d.alphabet.length + 1) * (W + 1) + 6) ∧
      u.length ≤ (d.states.length + 1) * ((d.alphabet.length + 1) * (W + 1) + 6) := by
  obtain ⟨⟨t, h1, _⟩, u, h2, _⟩ := C59_dfa_aligned d h
  exact ⟨t, u, h1, h2, dfa_table h hn ha (by simp) h1, dfa_table h hn ha (by simp) h2⟩

private theorem joined_length {W : Nat} : ∀ ns : List Str, (∀ x ∈ ns, x.length ≤ W) → (List.intercalate [' '] ns).length ≤ ns.length * (W + 1)
  | [], _ => by simp [List.intercalate]
  | [x], h => by have := h x (by simp); simp [List.intercalate]; omega
  | x :: y :: ns, h => by
    have ih := joined_length (y :: ns) (fun z hz => h z (by simp [hz]))
    have := h x (by simp)
    rw [intercalate_cons_cons]
    simp only [List.length_append, List.length_cons, List.length_nil] at *
    rw [Nat.add_mul]
    omega

private theorem nfa_table {n : Nfa} (h : n.WF) {W T : Nat} (hn : ∀ s ∈ n.states, s.name.length ≤ W) (ha : ∀ e ∈ n.alphabet, e.length ≤ W)
    (hT : ∀ s ∈ n.states, ∀ js ∈ s.epsilonTransitions :: s.transitions, js.length ≤ T)
    {eps arrow t : Str} (heps : eps.length ≤ 3) (harr : arrow.length ≤ 2) (ht : n.genTable eps arrow = some t) :
    t.length ≤ (n.states.length + 1) * ((n.alphabet.length + 1) * ((T + 1) * (W + 1) + 3) + W + 7) := by
  unfold Nfa.genTable at ht
  split at ht
  · cases ht
  rename_i rows hrows
  have hF := mapM_iff.1 hrows
  have hW : W + 1 ≤ (T + 1) * (W + 1) := Nat.le_mul_of_pos_left _ (by omega)
  have h1 := table_length (rows := ([[], [], [], eps] ++ n.alphabet) :: rows)
    (bs := [2, 1, W] ++ List.replicate (n.alphabet.length + 1) ((T + 1) * (W + 1) + 2)) (by
    intro r hr
    rcases List.mem_cons.1 hr with rfl | hr
    · refine covers_cons (by simp) (covers_cons (by simp) (covers_cons (by simp) (covers_replicate (cs := eps :: n.alphabet) (Nat.le_refl _) ?_)))
      intro c hc
      rcases List.mem_cons.1 hc with rfl | hc
      · omega
      · have := ha c hc; omega
    · obtain ⟨i, hi⟩ := List.mem_iff_getElem?.1 hr
      obtain ⟨s, hs, h2⟩ := forall₂_at' hF hi
      have hsm := List.mem_of_getElem? hs
      unfold Nfa.tableRow at h2
      cases hx : (s.epsilonTransitions :: s.transitions).mapM n.setCell with
      | none => rw [hx] at h2; cases h2
      | some cs =>
        rw [hx] at h2
        cases h2
        have h3 := mapM_iff.1 hx
        refine covers_cons ?_ (covers_cons ?_ (covers_cons (hn s hsm) (covers_replicate (cs := cs) ?_ ?_)))
        · split <;> simp [harr]
        · split <;> simp
        · rw [← h3.length_eq, List.length_cons, h.row_len s hsm]
        · intro c hc
          obtain ⟨i, hi⟩ := List.mem_iff_getElem?.1 hc
          obtain ⟨js, h4, h5⟩ := forall₂_at' h3 hi
          unfold Nfa.setCell at h5
          cases hy : namesOf (fun s : NfaState => s.name) n.states js with
          | none => rw [hy] at h5; cases h5
          | some ns =>
            rw [hy] at h5
            cases h5
            have h6 := namesOf_iff.1 hy
            have h7 := joined_length (W := W) ns (by
              intro x hx'
              obtain ⟨i, hi⟩ := List.mem_iff_getElem?.1 hx'
              obtain ⟨q, _, st, h4, rfl⟩ := forall₂_at' h6 hi
              exact hn st (List.mem_of_getElem? h4))
            have h8 := hT s hsm js (List.mem_of_getElem? h4)
            rw [← h6.length_eq] at h7
            have h9 := Nat.mul_le_mul_right (W + 1) h8
            simp only [List.length_append, List.length_cons, List.length_nil, Nat.add_mul]
            omega) ht
  rw [List.length_cons, ← hF.length_eq] at h1
  refine h1.trans (Nat.mul_le_mul_left _ ?_)
  simp only [List.map_append, List.map_cons, List.map_nil, List.map_replicate, List.sum_append, List.sum_cons, List.sum_nil, List.sum_replicate_nat]
  have e : (T + 1) * (W + 1) + 2 + 1 = (T + 1) * (W + 1) + 3 := rfl
  rw [e]
  omega

/-- **C99** The table of a valid NFA, if moreover no set of targets has more than `T` states. -/
theorem C99_nfa_table (n : Nfa) (h : n.WF) (W T : Nat) (hn : ∀ s ∈ n.states, s.name.length ≤ W) (ha : ∀ e ∈ n.alphabet, e.length ≤ W)
    (hT : ∀ s ∈ n.states, ∀ js ∈ s.epsilonTransitions :: s.transitions, js.length ≤ T) :
    ∃ t u, n.toTable = some t ∧ n.asciiTable = some u ∧
      t.length ≤ (n.states.length + 1) * ((n.alphabet.length + 1) * ((T + 1) * (W + 1) + 3) + W + 7) ∧
      u.length ≤ (n.states.length + 1) * ((n.alphabet.length + 1) * ((T + 1) * (W + 1) + 3) + W + 7) := by
  obtain ⟨⟨t, h1, _⟩, u, h2, _⟩ := C59_nfa_aligned n h
  exact ⟨t, u, h1, h2, nfa_table h hn ha hT (by simp) (by simp) h1, nfa_table h hn ha hT (by simp) (by simp) h2⟩

private theorem intercalate_ge {B : Nat} : ∀ (ls : List Str), (∀ l ∈ ls, B ≤ l.length) → ls.length * B ≤ (List.intercalate ['\n'] ls).length
  | [], _ => by simp
  | [l], h => by have := h l (by simp); simp [List.intercalate]; omega
  | l :: l' :: ls, h => by
    have ih := intercalate_ge (l' :: ls) (fun x hx => h x (by simp [hx]))
    have := h l (by simp)
    rw [intercalate_cons_cons]
    simp only [List.length_append, List.length_cons, List.length_nil] at *
    rw [Nat.add_mul]
    omega

/-- **C99** One long name makes every line long: the table has at least as many characters as a name, times the number of lines. -/
theorem C99_long_name (d : Dfa) (h : d.WF) (hk : d.alphabet ≠ []) (s : DfaState) (hs : s ∈ d.states) (t : Str) (ht : d.toTable = some t) :
    (d.states.length + 1) * s.name.length ≤ t.length := by
  obtain ⟨⟨t', h1, rows, lines, rfl, ⟨h2, offs, h3, h4⟩, h5, h6, h7⟩, _⟩ := C59_dfa_aligned d h
  rw [h1] at ht
  cases ht
  have hcols : ∀ (i : Nat) row, rows[i]? = some row → ∃ c, row[3]? = some c ∧ 3 < row.length := by
    intro i row hi
    have hlen : 3 < row.length := by
      cases i with
      | zero =>
        rw [h6] at hi
        cases hi
        have := List.length_pos_iff.2 hk
        simp; omega
      | succ i =>
        have hil := (List.getElem?_eq_some_iff.1 hi).1
        obtain ⟨ns, h8, h9⟩ := h7 i (d.states[i]'(by omega)) (List.getElem?_eq_getElem _)
        rw [h8] at hi
        cases hi
        have h10 := h9.length_eq
        rw [h.row_len _ (List.getElem_mem _)] at h10
        have := List.length_pos_iff.2 hk
        simp; omega
    exact ⟨row[3], List.getElem?_eq_getElem hlen, hlen⟩
  obtain ⟨i, hi⟩ := List.mem_iff_getElem?.1 hs
  obtain ⟨ns, h8, h9⟩ := h7 i s hi
  have hwide : offs 2 + s.name.length < offs 3 := by
    obtain ⟨line, hl⟩ : ∃ line, lines[i + 1]? = some line :=
      ⟨_, List.getElem?_eq_getElem (by have := (List.getElem?_eq_some_iff.1 h8).1; omega)⟩
    obtain ⟨c, _, h10⟩ := hcols _ _ h8
    exact ((h4 (i + 1) 2 _ line s.name h8 hl rfl).2.1 h10).1
  rw [← h5, ← h2]
  refine intercalate_ge lines ?_
  intro line hline
  obtain ⟨k, hk⟩ := List.mem_iff_getElem?.1 hline
  obtain ⟨row, hr⟩ : ∃ row, rows[k]? = some row := ⟨_, List.getElem?_eq_getElem (by have := (List.getElem?_eq_some_iff.1 hk).1; omega)⟩
  obtain ⟨c, hc, hlt⟩ := hcols k row hr
  obtain ⟨x, hx⟩ : ∃ x, row[2]? = some x := ⟨_, List.getElem?_eq_getElem (by omega)⟩
  have h11 := h4 k 2 row line x hr hk hx
  obtain ⟨h12, h13, _⟩ := h11
  obtain ⟨h14, h15⟩ := h13 (by omega)
  change offs 2 + x.length < offs 3 at h14
  change ∀ k : Nat, _ → k < offs 3 → _ at h15
  have h16 := (List.getElem?_eq_some_iff.1 (h15 (offs 3 - 1) (by omega) (by omega))).1
  omega

/-- Names of up to 6 characters: at most 108 characters in the table. -/
example : longNames.WF ∧ longNames.alphabet ≠ [] ∧ (∀ s ∈ longNames.states, s.name.length ≤ 6) ∧ (∀ e ∈ longNames.alphabet, e.length ≤ 6) ∧
    longNames.toTable.map List.length = some 90 ∧ (3 + 1) * ((2 + 1) * (6 + 1) + 6) = 108 := ⟨Dfa.wf_of_wfB (by decide), by decide, by decide, by decide, by decide +kernel, by decide⟩

/-- An automaton with epsilon moves. -/
example : epsNfa.WF ∧ (∀ s ∈ epsNfa.states, s.name.length ≤ 1) ∧ (∀ e ∈ epsNfa.alphabet, e.length ≤ 1) ∧
    (∀ s ∈ epsNfa.states, ∀ js ∈ s.epsilonTransitions :: s.transitions, js.length ≤ 2) ∧ epsNfa.toTable.map List.length = some 158 :=
  ⟨epsNfa_wf, by decide, by decide, by decide, by decide +kernel⟩

/-! ## Pictures as text -/

section
open Draw

private theorem levels_length {w n : Nat} {placed : List (PlacedArrow GroupedArrow)} {levels : Nat} {lines : List Str}
    (h : LevelLines w n placed levels lines) : lines.length = 2 * levels ∧ ∀ l ∈ lines, l.length ≤ (w + 7) * (n + 1) := by
  induction h with
  | zero => simp
  | succ h1 h2 _ ih =>
    have e : lineWidth w n ≤ (w + 7) * (n + 1) := by unfold lineWidth; rw [Nat.mul_add]; omega
    refine ⟨by simp only [List.length_cons, ih.1]; omega, ?_⟩
    intro l hl
    rcases List.mem_cons.1 hl with rfl | hl
    · rw [h1.width]; exact e
    rcases List.mem_cons.1 hl with rfl | hl
    · rw [h2.width]; exact e
    · exact ih.2 l hl

private theorem shown_length {ls : Nat → Nat → List Str} {states : List Draw.State} {art : Str} (h : ShownIn ls states art)
    (hi : ∀ i j, ls i j ≠ [] → i < states.length ∧ j < states.length) (w : Nat) (hw : ∀ s ∈ states, s.name.length ≤ w) :
    art.length ≤ (2 * (states.length * states.length) + 1) * ((w + 7) * (states.length + 1) + 1) := by
  obtain ⟨v, gs, placed, levels, h1, h2, h3, lines, last, h4, h5, rfl⟩ := h
  have hv : v ≤ w := by
    obtain ⟨s, h6, rfl⟩ := h1.1
    exact hw s h6
  have hgs : gs.length ≤ states.length * states.length := by
    have hnd : (gs.map (fun g => (g.source, g.target))).Nodup := by
      rw [List.Nodup, List.pairwise_map]
      exact h2.once.imp (fun hne he => hne ⟨congrArg Prod.fst he, congrArg Prod.snd he⟩)
    have hsub : gs.map (fun g => (g.source, g.target)) ⊆ (List.range states.length) ×ˢ (List.range states.length) := by
      intro p hp
      obtain ⟨g, hg, rfl⟩ := List.mem_map.1 hp
      obtain ⟨h6, h7⟩ := h2.labels g hg
      rw [h6] at h7
      have := hi _ _ h7
      exact List.mem_product.2 ⟨List.mem_range.2 this.1, List.mem_range.2 this.2⟩
    have := (hnd.subperm hsub).length_le
    rwa [List.length_map, List.length_product, List.length_range] at this
  have hlev : levels ≤ states.length * states.length := by
    have h6 : List.range levels ⊆ placed.map (·.level) := by
      intro x hx
      obtain ⟨p, hp, h7⟩ := h3.used x (List.mem_range.1 hx)
      exact List.mem_map.2 ⟨p, hp, h7⟩
    have h7 := (List.nodup_range.subperm h6).length_le
    have h8 := h3.each.length_eq
    rw [List.length_range, List.length_map] at h7
    rw [List.length_map] at h8
    omega
  obtain ⟨h6, h7⟩ := levels_length h4
  have h8 := intercalate_length (B := (w + 7) * (states.length + 1)) (lines ++ [last]) (by
    have e : (v + 7) * (states.length + 1) ≤ (w + 7) * (states.length + 1) := Nat.mul_le_mul_right _ (by omega)
    intro l hl
    rcases List.mem_append.1 hl with hl | hl
    · exact (h7 l hl).trans e
    · rw [List.mem_singleton.1 hl, h5.width]
      refine Nat.le_trans ?_ e
      rw [Nat.mul_add]; omega)
  refine h8.trans (Nat.mul_le_mul_right _ ?_)
  rw [List.length_append, h6, List.length_singleton]
  omega

/-- **C99** If the labels fit, the ASCII picture of a valid DFA with `n` states whose names have at most `w` characters has at most
`2n² + 1` lines of at most `(w + 7)(n + 1)` characters. -/
theorem C99_dfa_picture (ord : List GroupedArrow → List GroupedArrow) (ho : ∀ l, (ord l).Perm l) (d : Dfa) (h : d.WF) (w : Nat)
    (hw : Longest (d.states.map dfaState) w) (hf : Roomy (dfaLabels d) w) :
    ∃ art, dfaAsciiArt ord d = some art ∧
      art.length ≤ (2 * (d.states.length * d.states.length) + 1) * ((w + 7) * (d.states.length + 1) + 1) := by
  obtain ⟨art, h1, h2⟩ := C57_dfa_partial ord ho d h w hw hf
  have h3 := shown_length h2 (by rw [List.length_map]; exact dfa_inside h) w hw.2
  rw [List.length_map] at h3
  exact ⟨art, h1, h3⟩

example : ∃ art, dfaAsciiArt List.reverse endsB = some art ∧ art.length ≤ (2 * (2 * 2) + 1) * ((1 + 7) * (2 + 1) + 1) := by
  refine C99_dfa_picture List.reverse (fun l => List.reverse_perm l) _ endsB_wf 1 (longest_of (by decide)) (roomy_of_short 1 (dfa_short ?_))
  intro st hst j
  simp only [endsB, List.mem_cons, List.not_mem_nil, or_false] at hst
  rcases hst with rfl | rfl <;>
  · by_cases h0 : 0 = j
    · subst h0; decide
    · by_cases h1 : 1 = j
      · subst h1; decide
      · simp [endsB, h0, h1, List.intercalate, List.filter_cons]
example : (dfaAsciiArt List.reverse endsB).map List.length = some 157 := by decide +kernel

/-- **C99** The same for NFAs. -/
theorem C99_nfa_picture (ord : List GroupedArrow → List GroupedArrow) (ho : ∀ l, (ord l).Perm l) (n : Nfa) (h : n.WF) (w : Nat)
    (hw : Longest (n.states.map nfaState) w) (hf : Roomy (nfaLabels n) w) :
    ∃ art, nfaAsciiArt ord n = some art ∧
      art.length ≤ (2 * (n.states.length * n.states.length) + 1) * ((w + 7) * (n.states.length + 1) + 1) := by
  obtain ⟨art, h1, h2⟩ := C57_nfa_partial ord ho n h w hw hf
  have h3 := shown_length h2 (by rw [List.length_map]; exact nfa_inside h) w hw.2
  rw [List.length_map] at h3
  exact ⟨art, h1, h3⟩

end

/-! ## The work of `to_nfa` -/

private theorem alphabet_le (t : RegexTree) : (toNfa t).alphabet.length ≤ (toNfa t).states.length := by
  obtain ⟨h1, h2, _⟩ := C35_to_nfa_alphabet t
  have h3 := (h2.subperm (fun g hg => (h1 g).1 hg)).length_le
  have h4 := graphemes_count t
  rw [toNfa_count]
  omega

private theorem log_le (k : Nat) : Nat.log2 k ≤ k := by
  by_cases h : k = 0
  · subst h; decide
  · exact Nat.le_of_lt ((Nat.log2_lt h).2 Nat.lt_two_pow_self)

/-- **C99** `to_nfa` does at most `S(3D + 3k + 6)` steps if the NFA has `S` states and `k` elements and the expression is nested `D` deep. -/
theorem C99_to_nfa (t : RegexTree) :
    toNfaCost t ≤ (toNfa t).states.length * (3 * t.calls + 3 * (toNfa t).alphabet.length + 6) := by
  have h1 := tree_cost t 2 [] 0 _ (Nat.le_refl _)
  have h2 := alphabet_le t
  have h3 := log_le (toNfa t).alphabet.length
  have h4 := stateCount_pos t
  rw [toNfa_count] at *
  rw [← toNfa_alphabet_length] at h1
  unfold toNfaCost sortCost
  simp only [treeToNfa_count, ← toNfa_alphabet_length]
  generalize (toNfa t).alphabet.length = k at *
  generalize t.stateCount = n at *
  generalize t.calls = d at *
  generalize treeCost t 2 [] 0 = c at *
  have h5 : k * (1 + k.log2) ≤ (n + 2) * (1 + k) := Nat.mul_le_mul h2 (by omega)
  have e1 : (n + 2) * (3 * d + 3 * k + 6) = n * (3 * d + k) + 2 * (3 * d + k) + (n + 2) * (1 + k) + (n + 2) * (1 + k) + 4 * (n + 2) := by ring
  omega

example : (regex cl1 c!"(a|b)*a(a|b)").map (fun t => (toNfaCost t, (toNfa t).states.length, t.calls, (toNfa t).alphabet.length)) = some (126, 14, 4, 2) := by
  decide +kernel

/-- **C99** For a text without `+`: a quadratic number of steps. With `+` there are exponentially many states (`C83_regex_linear_false`). -/
theorem C99_to_nfa_quadratic (cl : Str → Nat) (h : Segmentation cl) (text core : Str) (ht : Trimmed text core) (t : RegexTree)
    (hp : regex cl text = some t) (hplus : '+' ∉ core) : toNfaCost t ≤ 4 * core.length * (12 * core.count '(' + 12 * core.length + 21) := by
  have h1 := C83_regex_linear_partial cl h text core ht t hp hplus
  have h2 := C99_to_nfa t
  have h3 := C98_trees cl text t hp
  have h4 := (C98_at_most cl core).2
  have h5 : RegexD.calls cl text = RegexD.calls cl core := by
    unfold RegexD.calls
    rw [trim_eq ht, trim_eq (by obtain ⟨_, _, _, _, _, h8, h9⟩ := ht; exact ⟨[], [], by simp, by simp, by simp, h8, h9⟩)]
  have h6 := alphabet_le t
  refine h2.trans (Nat.mul_le_mul (by omega) (by omega))

/-- `a`, `(a)*`, `((a)*)*`, … -/
def nestedStar : Nat → Str
  | 0 => c!"a"
  | k + 1 => c!"(" ++ nestedStar k ++ c!")*"

/-- The expression of `nestedStar`. -/
def starTree : Nat → RegexTree
  | 0 => .chr (.grapheme ['a'])
  | k + 1 => .rep (starTree k)

private theorem starTree_count : ∀ k, (starTree k).stateCount = k + 1
  | 0 => by rw [starTree, stateCount]
  | k + 1 => by rw [starTree, stateCount, starTree_count k]; omega

private theorem starTree_cost : ∀ k c chars send, k * (k + 1) ≤ 2 * treeCost (starTree k) c chars send
  | 0, _, _, _ => by simp
  | k + 1, c, chars, send => by
    have ih := starTree_cost k (c + 1) chars c
    rw [starTree, treeCost, treeToNfa_count, starTree_count]
    have : (k + 1) * (k + 1 + 1) = k * (k + 1) + 2 * (k + 1) := by ring
    omega

private theorem follows_close (r : Str) : Follows (')' :: r) := by
  intro c hc; cases hc; decide

private theorem star_item {cl : Str → Nat} (h : Segmentation cl) (hcl : LettersApart cl) : ∀ (k d : Nat) (r : Str), k ≤ d → Follows r →
    itemP cl (expression cl d) (nestedStar k ++ r) = some (starTree k, r)
  | 0, d, r, _, hr => by
    have h1 : cl ('a' :: r) = 1 := hcl 'a' r (by decide) (fun c hc => by rcases hr c hc with rfl | rfl <;> decide)
    have h2 := regexChar_plain h (c := 'a') (s := r) (by unfold IsReserved; decide)
    rw [h1] at h2
    refine item_complete (atom_of_char (by decide) h2) ?_
    intro c hc
    rcases hr c hc with rfl | rfl <;> decide
  | k + 1, d, r, hd, hr => by
    obtain ⟨d, rfl⟩ : ∃ e, d = e + 1 := ⟨d - 1, by omega⟩
    have ih := star_item h hcl k d (')' :: '*' :: r) (by omega) (follows_close _)
    have hce := expression_consumes h d
    have hn : itemP cl (expression cl d) (')' :: '*' :: r) = none := itemP_follow (follows_close _) h _
    have hq : sequence cl (expression cl d) (nestedStar k ++ ')' :: '*' :: r) = some (starTree k, ')' :: '*' :: r) :=
      map_some.2 ⟨[starTree k], (many1_iff (itemP_consumes h hce)).2 ⟨by simp, .cons ih (.nil _), hn⟩, rfl⟩
    have he : expression cl (d + 1) (nestedStar k ++ ')' :: '*' :: r) = some (starTree k, ')' :: '*' :: r) :=
      map_some.2 ⟨[starTree k], (separatedList1_iff (oneOf_consumes _) (sequence_consumes h hce).shrinks).2
        ⟨_, [], _, rfl, hq, .nil _, preceded_none.2 (Or.inl (oneOf_none.2 (by intro c hc; cases hc; decide)))⟩, rfl⟩
    rw [show nestedStar (k + 1) ++ r = '(' :: (nestedStar k ++ ')' :: '*' :: r) by simp [nestedStar]]
    refine item_complete_star (alt_some.2 (Or.inl (delimited_some.2 ⟨'(', ')', _, _, P.oneOf_some.2 ⟨by decide, rfl⟩, he, P.oneOf_some.2 ⟨by decide, rfl⟩⟩)))

private theorem star_length (k : Nat) : (nestedStar k).length = 3 * k + 1 := by
  induction k with
  | zero => rfl
  | succ k ih => simp only [nestedStar, List.length_append, ih, List.length_cons, List.length_nil]; omega

private theorem star_regex {cl : Str → Nat} (h : Segmentation cl) (hcl : LettersApart cl) (k : Nat) :
    regex cl (nestedStar k) = some (starTree k) := by
  have hlen := star_length k
  have ht : Trimmed (nestedStar k) (nestedStar k) := by
    refine ⟨[], [], by simp, by simp, by simp, ?_, ?_⟩
    · cases k <;> (intro c hc; cases hc; decide)
    · cases k with
      | zero => intro c hc; cases hc; decide
      | succ k =>
        intro c hc
        rw [nestedStar, List.getLast?_append] at hc
        cases hc; decide
  refine (regex_some ht).2 ?_
  have h1 := star_item h hcl k (nestedStar k).length [] (by omega) (by intro c hc; cases hc)
  rw [List.append_nil] at h1
  have hce := expression_consumes h (nestedStar k).length
  have hn : itemP cl (expression cl (nestedStar k).length) [] = none := itemP_follow (by intro c hc; cases hc) h _
  exact map_some.2 ⟨[starTree k], (separatedList1_iff (oneOf_consumes _) (sequence_consumes h hce).shrinks).2
    ⟨_, [], _, rfl, map_some.2 ⟨[starTree k], (many1_iff (itemP_consumes h hce)).2 ⟨by simp, .cons h1 (.nil _), hn⟩, rfl⟩, .nil _,
      preceded_none.2 (Or.inl (oneOf_none.2 (by intro c hc; cases hc)))⟩, rfl⟩

/-- **C99** The bound cannot be improved to less than quadratic: `k` nested stars are a text of `3k + 1` characters, and the states of every level are
moved once more on the next one. -/
theorem C99_to_nfa_nested (cl : Str → Nat) (h : Segmentation cl) (hcl : LettersApart cl) (k : Nat) :
    (nestedStar k).length = 3 * k + 1 ∧ ∃ t, regex cl (nestedStar k) = some t ∧ k * (k + 1) ≤ 2 * toNfaCost t := by
  refine ⟨star_length k, starTree k, star_regex h hcl k, ?_⟩
  have := starTree_cost k 2 [] 0
  unfold toNfaCost
  simp only
  omega

example : (regex cl1 (nestedStar 5)).map (fun t => toNfaCost t) = some 51 ∧ Segmentation cl1 := ⟨by decide +kernel, cl1_seg⟩

/-- **C98** Nothing limits the recursion of the functions that walk a tree either: for `k` nested stars it is `k + 1` calls deep. -/
theorem C98_nested_stars (cl : Str → Nat) (h : Segmentation cl) (hcl : LettersApart cl) (k : Nat) :
    ∃ t, regex cl (nestedStar k) = some t ∧ t.calls = k + 1 := by
  refine ⟨starTree k, star_regex h hcl k, ?_⟩
  induction k with
  | zero => rw [starTree, calls]
  | succ k ih => rw [starTree, calls, ih]

example : (regex cl1 (nestedStar 5)).map calls = some 6 ∧ Segmentation cl1 := ⟨by decide +kernel, cl1_seg⟩

/-! ## Instances of the theorems of this file -/

example := C99_to_string cl1 cl1_seg c!" a|b\n" c!"a|b" ⟨[' '], ['\n'], rfl, by decide, by decide, by decide, by decide⟩ _ rfl
example := C99_dfa_table Samples.endsB Samples.endsB_wf 1 (by decide) (by decide)
example := C99_nfa_table Samples.epsNfa Samples.epsNfa_wf 1 2 (by decide) (by decide) (by decide)
example := C99_to_nfa_quadratic cl1 cl1_seg c!" a|b\n" c!"a|b" ⟨[' '], ['\n'], rfl, by decide, by decide, by decide, by decide⟩ _ rfl (by
  decide)

end Dandy
