import Verif.Proofs.F32
import Verif.Props.Backends
import Verif.Model.Window
/-!
# C100: the arithmetic of `f32` in drawings
-/

namespace Dandy
open Draw

private theorem pow_int (a : Nat) : ((2 : Rat) ^ (a : Int)) = ((2 ^ a : Int) : Rat) := by
  rw [zpow_natCast]; push_cast; rfl

private theorem nearest_int (k : Int) : nearestEven (k : Rat) = k := by
  unfold nearestEven
  rw [Int.fract_intCast, if_pos (by norm_num), Int.floor_intCast]

private theorem lastBit_le {m e : Int} (hm : m.natAbs ≤ 2 ^ 24) (h0 : m ≠ 0) (he : -149 ≤ e) :
    lastBit (m * (2 : Rat) ^ e) ≤ e ∨ (m.natAbs = 2 ^ 24 ∧ lastBit (m * (2 : Rat) ^ e) ≤ e + 1) := by
  have hpos : (0 : Rat) < (2 : Rat) ^ e := zpow_pos (by norm_num) _
  have habs : |(m : Rat) * (2 : Rat) ^ e| = (m.natAbs : Rat) * (2 : Rat) ^ e := by
    rw [abs_mul, abs_of_pos hpos, Nat.cast_natAbs, Int.cast_abs]
  have hm0 : (0 : Rat) < m.natAbs := by exact_mod_cast Int.natAbs_pos.2 h0
  unfold lastBit
  rw [habs]
  have up : ∀ k : Nat, m.natAbs < 2 ^ k → Int.log 2 ((m.natAbs : Rat) * (2 : Rat) ^ e) < k + e := by
    intro k hk
    rw [← Int.lt_zpow_iff_log_lt (by decide) (mul_pos hm0 hpos)]
    push_cast
    rw [zpow_add₀ (by norm_num), zpow_natCast]
    have : (m.natAbs : Rat) < 2 ^ k := by exact_mod_cast hk
    exact mul_lt_mul_of_pos_right this hpos
  rcases Nat.lt_or_ge m.natAbs (2 ^ 24) with h | h
  · left
    have := up 24 h
    push_cast at this
    omega
  · right
    have := up 25 (by omega)
    push_cast at this
    exact ⟨by omega, by omega⟩

/-- **C100** Rounding to the nearest number of `f32` keeps the numbers of `f32`. -/
theorem C100_round32 : KeepsF32 round32 := by
  rintro q ⟨m, e, hm, he, _, rfl⟩
  by_cases h0 : m = 0
  · subst h0
    unfold round32
    rw [Int.cast_zero, zero_mul, zero_div, show nearestEven 0 = 0 from nearest_int 0, Int.cast_zero, zero_mul]
  · have key : ∀ k : Int, (m : Rat) * (2 : Rat) ^ e / (2 : Rat) ^ lastBit (m * (2 : Rat) ^ e) = k → round32 (m * (2 : Rat) ^ e) = m * (2 : Rat) ^ e := by
      intro k hk
      unfold round32
      rw [hk, nearest_int, ← hk]
      exact div_mul_cancel₀ _ (zpow_ne_zero _ (by norm_num))
    rcases lastBit_le hm h0 he with h | ⟨h1, h2⟩
    · refine key (m * 2 ^ (e - lastBit (m * (2 : Rat) ^ e)).toNat) ?_
      rw [mul_div_assoc, ← zpow_sub₀ (by norm_num), Int.cast_mul, ← pow_int, Int.toNat_of_nonneg (by omega)]
    · have : ∃ s : Int, m = s * 2 := ⟨m / 2, by omega⟩
      obtain ⟨s, hs⟩ := this
      refine key (s * 2 ^ (e + 1 - lastBit (m * (2 : Rat) ^ e)).toNat) ?_
      rw [Int.cast_mul, ← pow_int, Int.toNat_of_nonneg (by omega), zpow_sub₀ (by norm_num), zpow_add₀ (by norm_num), zpow_one, mul_div_assoc']
      congr 1
      rw [hs]
      push_cast
      ring

private theorem nearest_close (q : Rat) : |(nearestEven q : Rat) - q| ≤ 1 / 2 := by
  have h := Int.floor_add_fract q
  have h0 := Int.fract_nonneg q
  have h1 := Int.fract_lt_one q
  rw [abs_le]
  unfold nearestEven
  split
  · constructor <;> linarith
  · split
    · push_cast
      constructor <;> linarith
    · split
      · constructor <;> linarith
      · push_cast
        constructor <;> linarith

/-- **C100** The rounding gives a number of 24 bits, off by at most half of its last bit. -/
theorem C100_round32_near (q : Rat) : Has24 (round32 q) ∧ |round32 q - q| ≤ (2 : Rat) ^ lastBit q / 2 := by
  have hpos : (0 : Rat) < (2 : Rat) ^ lastBit q := zpow_pos (by norm_num) _
  have hc := nearest_close (q / (2 : Rat) ^ lastBit q)
  have hq : q = q / (2 : Rat) ^ lastBit q * (2 : Rat) ^ lastBit q := (div_mul_cancel₀ _ hpos.ne').symm
  constructor
  · refine ⟨_, lastBit q, ?_, rfl⟩
    have hlt : |q / (2 : Rat) ^ lastBit q| < 2 ^ 24 := by
      rw [abs_div, abs_of_pos hpos, div_lt_iff₀ hpos]
      have h1 : |q| < (2 : Rat) ^ (Int.log 2 |q| + 1) := by
        have := Int.lt_zpow_succ_log_self (b := 2) (by decide) |q|
        exact_mod_cast this
      refine lt_of_lt_of_le h1 ?_
      rw [← zpow_natCast, ← zpow_add₀ (by norm_num)]
      refine zpow_le_zpow_right₀ (by norm_num) ?_
      unfold lastBit
      push_cast
      omega
    have h2 : |(nearestEven (q / (2 : Rat) ^ lastBit q) : Rat)| < 2 ^ 24 + 1 := by
      rw [abs_lt] at hlt ⊢
      rw [abs_le] at hc
      constructor <;> linarith [hlt.1, hlt.2, hc.1, hc.2]
    have h3 : |nearestEven (q / (2 : Rat) ^ lastBit q)| < 2 ^ 24 + 1 := by exact_mod_cast h2
    rw [Int.abs_eq_natAbs] at h3
    omega
  · have e : round32 q - q = ((nearestEven (q / (2 : Rat) ^ lastBit q) : Rat) - q / (2 : Rat) ^ lastBit q) * (2 : Rat) ^ lastBit q := by
      rw [sub_mul, ← hq]
      rfl
    rw [e, abs_mul, abs_of_pos hpos]
    calc _ ≤ 1 / 2 * (2 : Rat) ^ lastBit q := mul_le_mul_of_nonneg_right hc hpos.le
      _ = _ := by ring

example : round32 (1 / 3) = 11184811 / 33554432 := by decide +kernel

/-- 16777217 lies in the middle between two numbers of `f32`. -/
example : round32 16777217 = 16777216 ∧ round32 16777219 = 16777220 := by decide +kernel

private theorem draw_eq {r : Rat → Rat} (hr : KeepsF32 r) {o : Options} {L S N : Nat} (h : F32.Bounds o L S N)
    {ord : List GroupedArrow → List GroupedArrow} {states : List Draw.State} {arrows : List Arrow} {ls : Nat → Nat → List Str}
    (hg : Groups ls (groupArrows ord arrows)) (hi : Inside states.length ls) (hs : states.length ≤ N)
    (hn : (labelledPairs ls states.length).length + 1 ≤ N) : F32.draw r o ord states arrows = draw o ord states arrows := by
  obtain ⟨placed, levels, h3, h4⟩ := layout_ok ord arrows hg
  have hl : levels + 1 ≤ N := by
    have e1 := C55_levels GroupedArrow.left GroupedArrow.right _ (fun g hm => Oriented.le (hg.oriented g hm)) placed levels h3
    have e2 := (pairs_perm hg hi).length_eq
    rw [List.length_map] at e2
    omega
  have hfine := groups_fine hg hi h4
  have hin : ∀ p ∈ placed, p.arrow.left ≤ N ∧ p.arrow.right ≤ N := by
    intro p hp
    have hm : p.arrow ∈ groupArrows ord arrows := h4.each.mem_iff.1 (List.mem_map.2 ⟨p, hp, rfl⟩)
    obtain ⟨e1, e2, _⟩ := ends_eq (hg.oriented _ hm)
    obtain ⟨l1, l2⟩ := hg.labels _ hm
    rw [l1] at l2
    have := hi _ _ l2
    omega
  obtain ⟨i1, i2⟩ := F32.init_eq hr h hl
  have hst : ∀ x ∈ states.zipIdx, x.2 ≤ N := by
    intro x hx
    have := List.snd_lt_of_mem_zipIdx hx
    omega
  have s1 : states.zipIdx.flatMap (fun x => F32.stateOps r o levels x.2 x.1) = states.zipIdx.flatMap (fun x => stateOps o levels x.2 x.1) :=
    List.flatMap_congr (fun x hx => (F32.state_eq hr h hl (hst x hx) x.1).1)
  have a1 : placed.flatMap (F32.arrowOps r o levels) = placed.flatMap (arrowOps o levels) :=
    List.flatMap_congr (fun p hp => (F32.arrow_eq hr h hl p (hin p hp).1 (hin p hp).2).1)
  unfold F32.draw draw
  rw [h3]
  simp only [Option.bind_eq_bind, Option.bind_some, i1, s1, a1]
  congr 1
  refine List.map_congr_left ?_
  intro op hop
  refine F32.place_eq hr h ?_
  simp only [List.mem_append, List.mem_flatMap, List.mem_singleton] at hop
  rcases hop with (((rfl | hop) | ⟨x, hx, hop⟩) | ⟨p, hp, hop⟩) | rfl
  · trivial
  · exact i2 op hop
  · exact (F32.state_eq hr h hl (hst x hx) x.1).2 op hop
  · exact (F32.arrow_eq hr h hl p (hin p hp).1 (hin p hp).2).2 op hop
  · trivial

/-- **C100** If lengths and scales are integers, drawings of DFAs that are not enormous are exact: every coordinate is the one computed with
rational numbers, whatever the rounding, because all intermediate results are numbers of `f32`. `L` and `S` bound the lengths and the scales,
`N` the number of states and of pairs of states with transitions. -/
theorem C100_dfa (r : Rat → Rat) (hr : KeepsF32 r) (o : Options) (L S N : Nat) (hL : 1 ≤ L) (hS : 1 ≤ S) (hw : o.Whole L S)
    (ord : List GroupedArrow → List GroupedArrow) (ho : ∀ l, (ord l).Perm l) (d : Dfa) (h : d.WF) (h1 : d.states.length ≤ N)
    (h2 : (labelledPairs (dfaLabels d) d.states.length).length + 1 ≤ N) (hb : L * (6 * N + 13) * S ≤ 2 ^ 24) :
    F32.drawDfa r o ord d = drawDfa o ord d := by
  obtain ⟨as, e1, e2⟩ := dfa_groups ord ho h
  have hN : 4 * N ≤ L * (6 * N + 13) * S := by
    have := Nat.mul_le_mul (Nat.mul_le_mul hL (Nat.le_refl (6 * N + 13))) hS
    omega
  unfold F32.drawDfa drawDfa
  rw [e1]
  exact draw_eq hr ⟨hw, hS, hb, by omega⟩ e2 (by rw [List.length_map]; exact dfa_inside h) (by rwa [List.length_map]) (by rwa [List.length_map])

/-- **C100** The same for NFAs. -/
theorem C100_nfa (r : Rat → Rat) (hr : KeepsF32 r) (o : Options) (L S N : Nat) (hL : 1 ≤ L) (hS : 1 ≤ S) (hw : o.Whole L S)
    (ord : List GroupedArrow → List GroupedArrow) (ho : ∀ l, (ord l).Perm l) (n : Nfa) (h : n.WF) (h1 : n.states.length ≤ N)
    (h2 : (labelledPairs (nfaLabels n) n.states.length).length + 1 ≤ N) (hb : L * (6 * N + 13) * S ≤ 2 ^ 24) :
    F32.drawNfa r o ord n = drawNfa o ord n := by
  obtain ⟨as, e1, e2⟩ := nfa_groups ord ho h
  have hN : 4 * N ≤ L * (6 * N + 13) * S := by
    have := Nat.mul_le_mul (Nat.mul_le_mul hL (Nat.le_refl (6 * N + 13))) hS
    omega
  unfold F32.drawNfa drawNfa
  rw [e1]
  exact draw_eq hr ⟨hw, hS, hb, by omega⟩ e2 (by rw [List.length_map]; exact nfa_inside h) (by rwa [List.length_map]) (by rwa [List.length_map])

private theorem whole_of {q : Rat} {L : Nat} (h1 : q.den = 1) (h2 : q.num.natAbs ≤ L) : ∃ k : Int, q = k ∧ k.natAbs ≤ L :=
  ⟨q.num, (Rat.den_eq_one_iff q).1 h1 |>.symm, h2⟩

private theorem default_whole : Options.default.Whole 50 1 := by
  constructor
  · intro q hq
    simp only [Options.default, List.mem_cons, List.not_mem_nil, or_false] at hq
    rcases hq with rfl | rfl <;> exact ⟨1, by norm_num, by decide⟩
  · intro q hq
    simp only [Options.default, List.mem_cons, List.not_mem_nil, or_false] at hq
    rcases hq with rfl | rfl | rfl | rfl | rfl | rfl | rfl | rfl | rfl | rfl | rfl | rfl | rfl
    all_goals exact whole_of (by decide) (by decide)

private theorem window_whole : Window.options.Whole 150 1 := by
  constructor
  · exact default_whole.scales
  · intro q hq
    simp only [Window.options, Options.default, List.mem_cons, List.not_mem_nil, or_false] at hq
    rcases hq with rfl | rfl | rfl | rfl | rfl | rfl | rfl | rfl | rfl | rfl | rfl | rfl | rfl
    all_goals exact whole_of (by decide) (by decide)

/-- **C100** With the default options: exact up to 55 921 states and fewer pairs of states with transitions than that. -/
theorem C100_default (r : Rat → Rat) (hr : KeepsF32 r) (ord : List GroupedArrow → List GroupedArrow) (ho : ∀ l, (ord l).Perm l) :
    (∀ d : Dfa, d.WF → d.states.length ≤ 55921 → (labelledPairs (dfaLabels d) d.states.length).length < 55921 →
      F32.drawDfa r Options.default ord d = drawDfa Options.default ord d) ∧
    (∀ n : Nfa, n.WF → n.states.length ≤ 55921 → (labelledPairs (nfaLabels n) n.states.length).length < 55921 →
      F32.drawNfa r Options.default ord n = drawNfa Options.default ord n) :=
  ⟨fun d h h1 h2 => C100_dfa r hr _ 50 1 55921 (by decide) (by decide) default_whole ord ho d h h1 h2 (by decide),
    fun n h h1 h2 => C100_nfa r hr _ 50 1 55921 (by decide) (by decide) default_whole ord ho n h h1 h2 (by decide)⟩

/-- **C100** With the options of the program with a window: exact up to 18 639. -/
theorem C100_window (r : Rat → Rat) (hr : KeepsF32 r) (ord : List GroupedArrow → List GroupedArrow) (ho : ∀ l, (ord l).Perm l) :
    (∀ d : Dfa, d.WF → d.states.length ≤ 18639 → (labelledPairs (dfaLabels d) d.states.length).length < 18639 →
      F32.drawDfa r Window.options ord d = drawDfa Window.options ord d) ∧
    (∀ n : Nfa, n.WF → n.states.length ≤ 18639 → (labelledPairs (nfaLabels n) n.states.length).length < 18639 →
      F32.drawNfa r Window.options ord n = drawNfa Window.options ord n) :=
  ⟨fun d h h1 h2 => C100_dfa r hr _ 150 1 18639 (by decide) (by decide) window_whole ord ho d h h1 h2 (by decide),
    fun n h h1 h2 => C100_nfa r hr _ 150 1 18639 (by decide) (by decide) window_whole ord ho n h h1 h2 (by decide)⟩

example : F32.drawNfa round32 Options.default List.reverse Samples.epsNfa = drawNfa Options.default List.reverse Samples.epsNfa :=
  (C100_default round32 C100_round32 List.reverse (fun l => List.reverse_perm l)).2 _ Samples.epsNfa_wf (by decide) (by decide +kernel)

/-- The texts are where they are without rounding. -/
example : ((F32.drawDfa round32 Options.default id Samples.endsB).map texts) = some
    [(⟨100, 140⟩, c!"y"), (⟨180, 140⟩, c!"n"), (⟨100, 60⟩, c!"b"), (⟨180, 60⟩, c!"a"), (⟨140, 35⟩, c!"b"), (⟨140, 10⟩, c!"a")] := by
  rw [(C100_default round32 C100_round32 id (fun _ => .refl _)).1 _ Samples.endsB_wf (by decide) (by decide +kernel)]
  decide +kernel

private theorem draw_calls (r : Rat → Rat) (o : Options) (ord : List GroupedArrow → List GroupedArrow) (states : List Draw.State) (arrows : List Arrow) :
    (F32.draw r o ord states arrows).map (List.map Op.call) = (draw o ord states arrows).map (List.map Op.call) := by
  unfold F32.draw draw
  cases layout ord arrows with
  | none => rfl
  | some x =>
    obtain ⟨placed, levels⟩ := x
    simp only [Option.bind_eq_bind, Option.bind_some, Option.pure_def, Option.map_some, Option.some.injEq, List.map_map]
    have e : (Op.call ∘ F32.place r ⟨o.xOffset, o.yOffset⟩ ⟨o.xScale, o.yScale⟩) = Op.call := by
      funext op; cases op <;> rfl
    have e' : (Op.call ∘ Op.place ⟨o.xOffset, o.yOffset⟩ ⟨o.xScale, o.yScale⟩) = Op.call := by
      funext op; cases op <;> rfl
    rw [e, e']
    simp only [List.map_append, List.map_flatMap]
    have s1 : ∀ x : Draw.State × Nat, (F32.stateOps r o levels x.2 x.1).map Op.call = (stateOps o levels x.2 x.1).map Op.call := by
      intro x
      unfold F32.stateOps stateOps
      cases x.1.accepting <;> cases x.1.initial <;> rfl
    have a1 : ∀ p : PlacedArrow GroupedArrow, (F32.arrowOps r o levels p).map Op.call = (arrowOps o levels p).map Op.call := by
      intro p
      unfold F32.arrowOps arrowOps
      cases o.middleArrow <;> cases o.endArrow <;> rfl
    simp only [s1, a1]
    rfl

/-- **C100** Whatever the options, the size and the rounding: the same calls in the same order with the same texts and colours as with
rational numbers, only coordinates can differ. -/
theorem C100_same_calls (r : Rat → Rat) (o : Options) (ord : List GroupedArrow → List GroupedArrow) :
    (∀ d : Dfa, (F32.drawDfa r o ord d).map (List.map Op.call) = (drawDfa o ord d).map (List.map Op.call)) ∧
    (∀ n : Nfa, (F32.drawNfa r o ord n).map (List.map Op.call) = (drawNfa o ord n).map (List.map Op.call)) := by
  constructor
  · intro d
    unfold F32.drawDfa drawDfa
    cases dfaToArrows d with
    | none => rfl
    | some as => exact draw_calls r o ord _ as
  · intro n
    unfold F32.drawNfa drawNfa
    cases nfaToArrows n with
    | none => rfl
    | some as => exact draw_calls r o ord _ as

/-- Between 2^26 and 2^27 only multiples of 8 are numbers of `f32`. -/
private theorem not_f32 : ¬ Has24 67108980 := by
  rintro ⟨m, e, hm, h⟩
  by_cases he : 3 ≤ e
  · obtain ⟨k, rfl⟩ := Int.le.dest he
    rw [zpow_add₀ (by norm_num), zpow_natCast] at h
    have : (67108980 : Int) = m * (8 * 2 ^ k) := by
      have h' : ((67108980 : Int) : Rat) = ((m * (8 * 2 ^ k) : Int) : Rat) := by
        push_cast
        rw [h]
        norm_num
      exact_mod_cast h'
    have e2 : m * (8 * 2 ^ k) = 8 * (m * 2 ^ k) := by ring
    omega
  · have h1 : (2 : Rat) ^ e ≤ (2 : Rat) ^ (2 : Int) := zpow_le_zpow_right₀ (by norm_num) (by omega)
    have hpos : (0 : Rat) < (2 : Rat) ^ e := zpow_pos (by norm_num) _
    have h2 : (m : Rat) ≤ 2 ^ 24 := by
      have : m ≤ 2 ^ 24 := by omega
      exact_mod_cast this
    have h3 : (67108980 : Rat) ≤ 2 ^ 24 * 4 := by
      rw [h]
      calc (m : Rat) * 2 ^ e ≤ 2 ^ 24 * 2 ^ e := mul_le_mul_of_nonneg_right h2 hpos.le
        _ ≤ 2 ^ 24 * 4 := by
          refine mul_le_mul_of_nonneg_left ?_ (by norm_num)
          calc (2 : Rat) ^ e ≤ (2 : Rat) ^ (2 : Int) := h1
            _ = 4 := by norm_num
    norm_num at h3

/-- **C100, the limit** A bound is necessary: with the default options the drawing of a DFA with more than 838 861 states is not exact, whatever
the rounding to numbers of `f32`: the centre of one of its circles is not a number of `f32`. -/
theorem C100_too_many_states (r : Rat → Rat) (hr : ∀ q, Has24 (r q)) (ord : List GroupedArrow → List GroupedArrow) (ho : ∀ l, (ord l).Perm l)
    (d : Dfa) (h : d.WF) (hd : 838861 < d.states.length) : F32.drawDfa r Options.default ord d ≠ drawDfa Options.default ord d := by
  obtain ⟨ops, gs, placed, levels, h1, _, _, h4⟩ := C66_dfa Options.default default_sensible ord ho d h
  intro e
  rw [h1] at e
  have hall : ∀ t ∈ texts ops, Has24 t.1.x := by
    unfold F32.drawDfa F32.draw at e
    obtain ⟨as, _, e⟩ := Option.bind_eq_some_iff.1 e
    obtain ⟨x, _, e⟩ := Option.bind_eq_some_iff.1 e
    have e := (Option.some.inj e).symm
    subst e
    rintro t ht
    obtain ⟨op, hop, ht⟩ := List.mem_filterMap.1 ht
    obtain ⟨op', _, rfl⟩ := List.mem_map.1 hop
    cases op' <;> simp only [F32.place] at ht <;> cases ht
    exact hr _
  have hx : (Options.default.onCanvas (Options.default.stateX 838861) (Options.default.stateY levels)).x = 67108980 := by
    simp only [Options.onCanvas, Options.stateX, Options.step, Options.default]
    norm_num
  have hmem : (Options.default.onCanvas (Options.default.stateX 838861) (Options.default.stateY levels), (d.states[838861]'hd).name) ∈ texts ops := by
    rw [h4.texts, List.mem_append]
    left
    refine List.mem_map.2 ⟨(dfaState d.states[838861], 838861), ?_, rfl⟩
    rw [List.mem_zipIdx_iff_getElem?]
    simp [hd]
  have := hall _ hmem
  rw [hx] at this
  exact not_f32 this

/-- A chain of `n + 1` states that all lead to the next one. -/
def longChain (n : Nat) : Dfa :=
  { alphabet := [c!"a"],
    states := (List.range (n + 1)).map (fun i => ⟨List.replicate (i + 1) 'q', i = 0, i = n, [min (i + 1) n]⟩), initialState := 0 }

theorem longChain_wf (n : Nat) : (longChain n).WF := by
  have hl : (longChain n).states.length = n + 1 := by simp [longChain]
  refine ⟨List.nodup_singleton _, ?_, ?_, ?_, ?_, ?_⟩
  · simp only [longChain, List.map_map]
    refine List.Nodup.map ?_ List.nodup_range
    intro i j hij
    have := congrArg List.length hij
    simp only [Function.comp, List.length_replicate] at this
    omega
  · intro s hs
    obtain ⟨i, _, rfl⟩ := List.mem_map.1 hs
    rfl
  · intro s hs t ht
    rw [hl]
    obtain ⟨i, _, rfl⟩ := List.mem_map.1 hs
    rw [List.mem_singleton.1 ht]
    omega
  · rw [hl]
    exact Nat.succ_pos n
  · intro i s hs
    simp only [longChain, List.getElem?_map, Option.map_eq_some_iff] at hs
    obtain ⟨j, hj, rfl⟩ := hs
    have := List.getElem?_range (show i < n + 1 by
      have := (List.getElem?_eq_some_iff.1 hj).1
      rwa [List.length_range] at this)
    rw [this] at hj
    cases hj
    simp [longChain]

private theorem longChain_pairs (n : Nat) : (labelledPairs (dfaLabels (longChain n)) (n + 1)).length ≤ n + 1 := by
  have hn : (labelledPairs (dfaLabels (longChain n)) (n + 1)).Nodup :=
    List.Nodup.filter _ (List.Nodup.product List.nodup_range List.nodup_range)
  have hs : labelledPairs (dfaLabels (longChain n)) (n + 1) ⊆ (List.range (n + 1)).map (fun i => (i, min (i + 1) n)) := by
    rintro ⟨i, j⟩ hm
    simp only [labelledPairs, List.mem_map, List.mem_filter, List.mem_flatMap, List.mem_range, decide_eq_true_eq, Prod.mk.injEq] at hm ⊢
    obtain ⟨⟨i', hi, j', hj, rfl, rfl⟩, hne⟩ := hm
    refine ⟨i', hi, rfl, ?_⟩
    obtain ⟨e, he⟩ := List.exists_mem_of_ne_nil _ hne
    have hr := (C56_dfa_labels (longChain n) (longChain_wf n) i' j' e).1 he
    cases hr with
    | cons h1 h2 h3 h4 =>
      cases h4
      simp only [longChain, List.getElem?_map, Option.map_eq_some_iff] at h1
      obtain ⟨k, hk, rfl⟩ := h1
      rw [List.getElem?_range hi] at hk
      cases hk
      exact (List.mem_singleton.1 (List.mem_of_getElem? h3)).symm
  have := (hn.subperm hs).length_le
  rwa [List.length_map, List.length_range] at this

/-- A chain of 55 920 states is drawn exactly. -/
example : F32.drawDfa round32 Options.default id (longChain 55919) = drawDfa Options.default id (longChain 55919) := by
  have hl : (longChain 55919).states.length = 55920 := by simp [longChain]
  have := longChain_pairs 55919
  refine (C100_default round32 C100_round32 id (fun _ => .refl _)).1 _ (longChain_wf _) (by omega) ?_
  rw [hl]
  exact Nat.lt_of_le_of_lt this (by decide)

/-- A chain of 838 862 states is not. -/
example : F32.drawDfa round32 Options.default id (longChain 838861) ≠ drawDfa Options.default id (longChain 838861) :=
  C100_too_many_states round32 (fun q => (C100_round32_near q).1) id (fun _ => .refl _) _ (longChain_wf _) (by simp [longChain])

/-! ## Instances of the theorems of this file -/

example := C100_dfa round32 C100_round32 _ 50 1 55921 (by decide) (by decide) default_whole List.reverse (fun l => List.reverse_perm l)
  Samples.endsB Samples.endsB_wf (by decide) (by decide +kernel) (by decide)
example := C100_nfa round32 C100_round32 _ 50 1 55921 (by decide) (by decide) default_whole List.reverse (fun l => List.reverse_perm l)
  Samples.epsNfa Samples.epsNfa_wf (by decide) (by decide +kernel) (by decide)
example := C100_same_calls round32 Options.default List.reverse

end Dandy
