import Verif.Proofs.Table
/-! # Printed tables are aligned -/

namespace Dandy

/-- Column lengths cover the cells. -/
def Covers (rl : List Nat) (row : List Str) : Prop := ∀ (j : Nat) c, row[j]? = some c → ∃ w, rl[j]? = some w ∧ c.length ≤ w

theorem zipMax_covers : ∀ (ls : List Nat) (ss : List Str), ss.length ≤ ls.length → Covers (Table.zipMax ls ss) ss
  | _, [], _, j, c, h => by simp at h
  | [], _ :: _, h, _, _, _ => by simp at h
  | l :: ls, s :: ss, h, j, c, hc => by
    rw [Table.zipMax]
    match j, hc with
    | 0, hc => cases hc; exact ⟨_, rfl, Nat.le_max_right _ _⟩
    | j + 1, hc =>
      have := zipMax_covers ls ss (by simpa using h) j c (by simpa using hc)
      simpa using this

theorem zipMax_mono : ∀ (ls : List Nat) (ss : List Str) (j w : Nat), ls[j]? = some w → ∃ w', (Table.zipMax ls ss)[j]? = some w' ∧ w ≤ w'
  | [], _, j, w, h => by simp at h
  | l :: ls, [], j, w, h => ⟨w, by simpa [Table.zipMax] using h, Nat.le_refl _⟩
  | l :: ls, s :: ss, j, w, h => by
    rw [Table.zipMax]
    match j, h with
    | 0, h => cases h; exact ⟨_, rfl, Nat.le_max_left _ _⟩
    | j + 1, h =>
      have := zipMax_mono ls ss j w (by simpa using h)
      simpa using this

theorem pushRow_covers (t : Table) (row : List Str) : Covers (t.pushRow row).rowLen row := by
  unfold Table.pushRow
  refine zipMax_covers _ _ ?_
  split
  · simp; omega
  · omega

theorem pushRow_mono (t : Table) (row row' : List Str) (h : Covers t.rowLen row') : Covers (t.pushRow row).rowLen row' := by
  intro j c hc
  obtain ⟨w, h1, h2⟩ := h j c hc
  unfold Table.pushRow
  obtain ⟨w', h3, h4⟩ := zipMax_mono (if row.length > t.rowLen.length then t.rowLen ++ List.replicate (row.length - t.rowLen.length) 0
    else t.rowLen) row j w (by
      split
      · rw [List.getElem?_append_left (List.getElem?_eq_some_iff.1 h1).1]; exact h1
      · exact h1)
  exact ⟨w', h3, by omega⟩

theorem foldl_covers (rows : List (List Str)) : ∀ t : Table, (∀ r ∈ t.rows, Covers t.rowLen r) →
    ∀ r ∈ (rows.foldl Table.pushRow t).rows, Covers (rows.foldl Table.pushRow t).rowLen r := by
  induction rows with
  | nil => intro t h; exact h
  | cons r rows ih =>
    intro t h
    rw [List.foldl_cons]
    refine ih _ ?_
    intro r' hr'
    rw [pushRow_rows] at hr'
    rcases List.mem_append.1 hr' with h1 | h1
    · exact pushRow_mono t r r' (h r' h1)
    · rw [List.mem_singleton.1 h1]; exact pushRow_covers t r

/-- The place of column `j`. -/
def colStart (ws : List Nat) (j : Nat) : Nat := ((ws.take j).map (· + 1)).sum

theorem rowString_at : ∀ (ws : List Nat) (row : List Str) (j : Nat) (c : Str) (w : Nat), row[j]? = some c → ws[j]? = some w →
    (∀ (k : Nat) x v, k < j → row[k]? = some x → ws[k]? = some v → x.length ≤ v) →
    ∃ pre post, Table.rowString ws [' '] row = pre ++ (c ++ (List.replicate (w - c.length) ' ' ++ [' '] ++ post)) ∧
      pre.length = colStart ws j ∧ (j + 1 = row.length → post = [])
  | [], _, j, _, _, _, h, _ => by simp at h
  | _ :: _, [], j, _, _, h, _, _ => by simp at h
  | w0 :: ws, c0 :: row, 0, c, w, h1, h2, _ => by
    cases h1; cases h2
    refine ⟨[], Table.rowString ws [' '] row, by rw [rowString_cons]; simp, by simp [colStart], ?_⟩
    intro h
    have : row = [] := by simpa using h.symm
    rw [this, rowString_nil]
  | w0 :: ws, c0 :: row, j + 1, c, w, h1, h2, h3 => by
    obtain ⟨pre, post, e1, e2, e3⟩ := rowString_at ws row j c w (by simpa using h1) (by simpa using h2) (by
      intro k x v hk hx hv
      exact h3 (k + 1) x v (by omega) (by simpa using hx) (by simpa using hv))
    refine ⟨c0 ++ (List.replicate (w0 - c0.length) ' ' ++ [' ']) ++ pre, post, by rw [rowString_cons, e1]; simp, ?_, ?_⟩
    · have h0 := h3 0 c0 w0 (by omega) rfl rfl
      have : colStart (w0 :: ws) (j + 1) = w0 + 1 + colStart ws j := by simp [colStart]
      rw [this]
      simp only [List.length_append, List.length_replicate, List.length_cons, List.length_nil, e2]
      omega
    · intro h; exact e3 (by simpa using h)

theorem colStart_succ {ws : List Nat} {j w : Nat} (h : ws[j]? = some w) : colStart ws (j + 1) = colStart ws j + w + 1 := by
  unfold colStart
  rw [List.take_add_one, h]
  simp; omega

theorem aligned_of_rows {rows : List (List Str)} {m : Nat} (hm : 0 < m) (hr : ∀ r ∈ rows, r.length = m) :
    ∃ lines, (rows.foldl Table.pushRow Table.empty).toString [' '] = some (List.intercalate ['\n'] lines) ∧ AlignedLines rows lines := by
  have hrows : (rows.foldl Table.pushRow Table.empty).rows = rows := by rw [foldl_pushRow_rows]; simp [Table.empty]
  have hcov := foldl_covers rows Table.empty (by intro r h; simp [Table.empty] at h)
  have hlen : rows ≠ [] → (rows.foldl Table.pushRow Table.empty).rowLen.length = m := by
    intro hne
    match rows, hne, hr with
    | r :: rows, _, hr =>
      rw [List.foldl_cons]
      have h0 : (Table.empty.pushRow r).rowLen.length = m := by
        rw [pushRow_len, hr r List.mem_cons_self]; simp [Table.empty]
      rw [foldl_pushRow_len _ _ (by intro r' h'; have := hr r' (List.mem_cons_of_mem _ h'); omega), h0]
  rw [hrows] at hcov
  generalize rows.foldl Table.pushRow Table.empty = t at hrows hcov hlen
  refine ⟨rows.map (Table.rowString t.widths [' ']), ?_, by simp, colStart t.widths, by simp [colStart], ?_⟩
  · unfold Table.toString
    rw [hrows, if_neg]
    intro h
    simp only [Bool.and_eq_true, Bool.not_eq_true', List.isEmpty_eq_false_iff, List.isEmpty_iff] at h
    have := hlen h.1
    rw [h.2] at this
    simp at this; omega
  · intro i j row line cell hrow hline hcell
    have hrowm := List.mem_of_getElem? hrow
    have hne : rows ≠ [] := List.ne_nil_of_mem hrowm
    have hl := hlen hne
    have hrl := hr row hrowm
    have hj : j < m := hrl ▸ (List.getElem?_eq_some_iff.1 hcell).1
    rw [List.getElem?_map, hrow] at hline
    simp only [Option.map_some, Option.some.injEq] at hline
    have hcov' := hcov row hrowm
    -- widths of the columns
    have hwlt : ∀ k, k + 1 < m → t.widths[k]? = t.rowLen[k]? := by
      intro k hk
      unfold Table.widths
      rw [List.getElem?_append_left (by simp; omega), List.getElem?_take_of_lt (by omega)]
    have hwlast : t.widths[m - 1]? = some 0 := by
      unfold Table.widths
      rw [List.getElem?_append_right (by simp; omega)]
      simp [hl]
    have hwlen : t.widths.length = m := by unfold Table.widths; simp; omega
    obtain ⟨w, hw⟩ : ∃ w, t.widths[j]? = some w := ⟨_, List.getElem?_eq_getElem (by omega)⟩
    obtain ⟨pre, post, e1, e2, e3⟩ := rowString_at t.widths row j cell w hcell hw (by
      intro k x v hk hx hv
      obtain ⟨v', h1, h2⟩ := hcov' k x hx
      rw [hwlt k (by omega), h1] at hv
      cases hv
      exact h2)
    rw [hline] at e1
    subst e1
    have hdrop : (pre ++ (cell ++ (List.replicate (w - cell.length) ' ' ++ [' '] ++ post))).drop (colStart t.widths j) =
        cell ++ (List.replicate (w - cell.length) ' ' ++ [' '] ++ post) := by
      rw [← e2, List.drop_left]
    refine ⟨by rw [hdrop]; exact List.prefix_append _ _, ?_, ?_⟩
    · intro hj'
      rw [hrl] at hj'
      have hw' : cell.length ≤ w := by
        obtain ⟨v', h1, h2⟩ := hcov' j cell hcell
        rw [hwlt j hj', h1] at hw
        cases hw
        exact h2
      rw [colStart_succ hw]
      refine ⟨by omega, ?_⟩
      intro k h1 h2
      rw [List.getElem?_append_right (by omega), List.getElem?_append_right (by omega), List.append_assoc]
      by_cases hk : k - pre.length - cell.length < w - cell.length
      · rw [List.getElem?_append_left (by simpa using hk), List.getElem?_replicate_of_lt hk]
      · rw [List.getElem?_append_right (by simpa using hk), List.getElem?_append_left (by simp; omega)]
        have : k - pre.length - cell.length - (List.replicate (w - cell.length) ' ').length = 0 := by simp; omega
        rw [this]; rfl
    · intro hj'
      rw [hrl] at hj'
      have hjm : j = m - 1 := by omega
      rw [hjm, hwlast] at hw
      cases hw
      rw [e3 (by omega), ← List.append_assoc, show colStart t.widths j + cell.length = (pre ++ cell).length by
        rw [List.length_append, e2], List.drop_left]
      simp

end Dandy

namespace Dandy

theorem dfa_aligned {d : Dfa} (h : d.WF) (arrow : Str) : ∃ rows lines, d.genTable arrow = some (List.intercalate ['\n'] lines) ∧
    AlignedLines rows lines ∧ rows.length = d.states.length + 1 ∧ rows[0]? = some ([[], [], []] ++ d.alphabet) ∧
    ∀ (i : Nat) s, d.states[i]? = some s → ∃ ns, rows[i + 1]? = some
      ([if s.initial then arrow else [], if s.accepting then ['*'] else [], s.name] ++ ns) ∧
      List.Forall₂ (fun j t => ∃ st, d.states[j]? = some st ∧ st.name = t) s.transitions ns := by
  obtain ⟨rows, hrows⟩ := mapM_total (f := d.tableRow arrow) (l := d.states) (by
    intro s hs
    obtain ⟨ns, hns⟩ := namesOf_total (name := fun s : DfaState => s.name) (states := d.states) (h.targets s hs)
    exact ⟨_, by unfold Dfa.tableRow; rw [hns]; rfl⟩)
  have hF := mapM_iff.1 hrows
  have hrow : ∀ (i : Nat) s, d.states[i]? = some s → ∃ ns, rows[i]? = some
      ([if s.initial then arrow else [], if s.accepting then ['*'] else [], s.name] ++ ns) ∧
      List.Forall₂ (fun j t => ∃ st, d.states[j]? = some st ∧ st.name = t) s.transitions ns := by
    intro i s hs
    obtain ⟨r, hr, hr'⟩ := forall₂_at hF hs
    unfold Dfa.tableRow at hr'
    cases hx : namesOf (fun s : DfaState => s.name) d.states s.transitions with
    | none => rw [hx] at hr'; cases hr'
    | some ns =>
      rw [hx] at hr'
      cases hr'
      exact ⟨ns, hr, namesOf_iff.1 hx⟩
  obtain ⟨lines, h1, h2⟩ := aligned_of_rows (rows := ([[], [], []] ++ d.alphabet) :: rows) (m := d.alphabet.length + 3) (by omega) (by
    intro r hr
    rcases List.mem_cons.1 hr with rfl | hr
    · simp
    · obtain ⟨i, hi⟩ := List.mem_iff_getElem?.1 hr
      obtain ⟨s, hs, _⟩ := forall₂_at' hF hi
      obtain ⟨ns, h3, h4⟩ := hrow i s hs
      rw [hi] at h3
      cases h3
      have := h4.length_eq
      have := h.row_len s (List.mem_of_getElem? hs)
      simp; omega)
  refine ⟨_, lines, ?_, h2, by simp [hF.length_eq], rfl, ?_⟩
  · unfold Dfa.genTable
    rw [hrows]
    exact h1
  · intro i s hs
    simpa using hrow i s hs

theorem nfa_aligned {n : Nfa} (h : n.WF) (eps arrow : Str) : ∃ rows lines, n.genTable eps arrow = some (List.intercalate ['\n'] lines) ∧
    AlignedLines rows lines ∧ rows.length = n.states.length + 1 ∧ rows[0]? = some ([[], [], [], eps] ++ n.alphabet) ∧
    ∀ (i : Nat) s, n.states[i]? = some s → ∃ cs, rows[i + 1]? = some
      ([if s.initial then arrow else [], if s.accepting then ['*'] else [], s.name] ++ cs) ∧
      List.Forall₂ (fun js c => ∃ ns, c = '{' :: List.intercalate [' '] ns ++ ['}'] ∧
        List.Forall₂ (fun j t => ∃ st, n.states[j]? = some st ∧ st.name = t) js ns) (s.epsilonTransitions :: s.transitions) cs := by
  have hcell : ∀ (js : List Nat) (c : Str), n.setCell js = some c → ∃ ns, c = '{' :: List.intercalate [' '] ns ++ ['}'] ∧
        List.Forall₂ (fun j t => ∃ st, n.states[j]? = some st ∧ st.name = t) js ns := by
    intro js c hc
    unfold Nfa.setCell at hc
    cases hx : namesOf (fun s : NfaState => s.name) n.states js with
    | none => rw [hx] at hc; cases hc
    | some ns => rw [hx] at hc; cases hc; exact ⟨ns, rfl, namesOf_iff.1 hx⟩
  obtain ⟨rows, hrows⟩ := mapM_total (f := n.tableRow arrow) (l := n.states) (by
    intro s hs
    obtain ⟨cs, hcs⟩ := mapM_total (f := n.setCell) (l := s.epsilonTransitions :: s.transitions) (by
      intro js hjs
      obtain ⟨ns, hns⟩ := namesOf_total (name := fun s : NfaState => s.name) (states := n.states) (cs := js) (by
        rcases List.mem_cons.1 hjs with rfl | hjs
        · exact h.eps_targets s hs
        · exact h.targets s hs js hjs)
      exact ⟨_, by unfold Nfa.setCell; rw [hns]; rfl⟩)
    exact ⟨_, by unfold Nfa.tableRow; rw [hcs]; rfl⟩)
  have hF := mapM_iff.1 hrows
  have hrow : ∀ (i : Nat) s, n.states[i]? = some s → ∃ cs, rows[i]? = some
      ([if s.initial then arrow else [], if s.accepting then ['*'] else [], s.name] ++ cs) ∧
      List.Forall₂ (fun js c => ∃ ns, c = '{' :: List.intercalate [' '] ns ++ ['}'] ∧
        List.Forall₂ (fun j t => ∃ st, n.states[j]? = some st ∧ st.name = t) js ns) (s.epsilonTransitions :: s.transitions) cs := by
    intro i s hs
    obtain ⟨r, hr, hr'⟩ := forall₂_at hF hs
    unfold Nfa.tableRow at hr'
    cases hx : (s.epsilonTransitions :: s.transitions).mapM n.setCell with
    | none => rw [hx] at hr'; cases hr'
    | some cs =>
      rw [hx] at hr'
      cases hr'
      exact ⟨cs, hr, (mapM_iff.1 hx).imp hcell⟩
  obtain ⟨lines, h1, h2⟩ := aligned_of_rows (rows := ([[], [], [], eps] ++ n.alphabet) :: rows) (m := n.alphabet.length + 4) (by omega) (by
    intro r hr
    rcases List.mem_cons.1 hr with rfl | hr
    · simp
    · obtain ⟨i, hi⟩ := List.mem_iff_getElem?.1 hr
      obtain ⟨s, hs, _⟩ := forall₂_at' hF hi
      obtain ⟨cs, h3, h4⟩ := hrow i s hs
      rw [hi] at h3
      cases h3
      have := h4.length_eq
      have := h.row_len s (List.mem_of_getElem? hs)
      simp at *; omega)
  refine ⟨_, lines, ?_, h2, by simp [hF.length_eq], rfl, ?_⟩
  · unfold Nfa.genTable
    rw [hrows]
    exact h1
  · intro i s hs
    simpa using hrow i s hs

end Dandy
