import Verif.Spec.Tests
import Verif.Proofs.Words
import Verif.Proofs.RegexPrint
/-! # Lemmas about the generators and the loops of the randomized tests -/

namespace Dandy
namespace PropTests
open WordIter

theorem check_true {b : Bool} (h : b = true) : check b = some () := by subst h; rfl

theorem forEach_some {α : Type} {f : α → Option Unit} : ∀ {l : List α}, (∀ a ∈ l, f a = some ()) → forEach f l = some ()
  | [], _ => rfl
  | a :: l, h => by
    rw [forEach, h a List.mem_cons_self]
    exact forEach_some (fun b hb => h b (List.mem_cons_of_mem _ hb))

/-! ## Generated automata are valid -/

theorem zip_states_length {α β γ : Type} {a : List α} {b : List β} {c : List γ} {n : Nat} (ha : a.length = n) (hb : b.length = n)
    (hc : c.length = n) : (a.zip (b.zip c)).length = n := by simp [ha, hb, hc]

theorem drawnDfa_facts {alphabet : List Str} {d : Dfa} (hal : alphabet.Nodup) (h : DrawnDfa alphabet d) :
    d.WF ∧ d.alphabet = alphabet ∧ ∀ s ∈ d.states, TableText.Name s.name := by
  obtain ⟨count, names, initial, accepting, rows, ⟨hn1, hn2, hn3⟩, hi, ha, hr, hrow⟩ := h
  have hlen : (names.zip (accepting.zip rows)).length = count := zip_states_length hn1 ha hr
  have hstate : ∀ (i : Nat) (s : DfaState), (dfaOf names alphabet initial accepting rows).states[i]? = some s →
      names[i]? = some s.name ∧ rows[i]? = some s.transitions ∧ (s.initial = true ↔ i = initial) := by
    intro i s hs
    simp only [dfaOf, List.getElem?_map, List.getElem?_zipIdx, Option.map_eq_some_iff, List.getElem?_zip_eq_some] at hs
    obtain ⟨⟨⟨nm, ac, row⟩, j⟩, ⟨⟨nm', ac', row'⟩, ⟨h1, h2, h3⟩, h4⟩, rfl⟩ := hs
    cases h4
    exact ⟨h1, h3, by simp⟩
  have hnames : (dfaOf names alphabet initial accepting rows).states.map (·.name) = names := by
    apply List.ext_getElem?
    intro i
    rw [List.getElem?_map]
    cases hs : (dfaOf names alphabet initial accepting rows).states[i]? with
    | some s => rw [(hstate i s hs).1]; rfl
    | none =>
      rw [List.getElem?_eq_none_iff] at hs
      have : (dfaOf names alphabet initial accepting rows).states.length = count := by simp [dfaOf, hlen]
      rw [Option.map_none, eq_comm, List.getElem?_eq_none_iff]
      omega
  have hcount : (dfaOf names alphabet initial accepting rows).states.length = count := by simp [dfaOf, hlen]
  refine ⟨⟨hal, by rw [hnames]; exact hn2, ?_, ?_, by rw [hcount]; exact hi, ?_⟩, rfl, ?_⟩
  · intro s hs
    obtain ⟨i, hs⟩ := List.mem_iff_getElem?.1 hs
    exact (hrow _ (List.mem_of_getElem? (hstate i s hs).2.1)).1
  · intro s hs t ht
    obtain ⟨i, hs⟩ := List.mem_iff_getElem?.1 hs
    rw [hcount]
    exact (hrow _ (List.mem_of_getElem? (hstate i s hs).2.1)).2 t ht
  · intro i s hs
    exact (hstate i s hs).2.2
  · intro s hs
    obtain ⟨i, hs⟩ := List.mem_iff_getElem?.1 hs
    exact hn3 _ (List.mem_of_getElem? (hstate i s hs).1)

theorem targets_lt {count : Nat} {ts : List Nat} (h : Targets count ts) : ∀ t ∈ ts, t < count := by
  obtain ⟨flags, h1, h2⟩ := h
  intro t ht
  have := h2.mem_iff.1 ht
  simp only [setFlags, List.mem_filterMap] at this
  obtain ⟨⟨b, i⟩, h3, h4⟩ := this
  have h5 := (List.mem_zipIdx h3)
  dsimp only at h4
  split at h4
  · cases h4; omega
  · cases h4

theorem drawnNfa_facts {alphabet : List Str} {n : Nfa} (hal : alphabet.Nodup) (h : DrawnNfa alphabet n) :
    n.WF ∧ n.alphabet = alphabet ∧ ∀ s ∈ n.states, TableText.Name s.name := by
  obtain ⟨count, names, initial, accepting, rows, eps, ⟨hn1, hn2, hn3⟩, hi, ha, hr, he, hrow, heps⟩ := h
  have hlen : (names.zip (accepting.zip (rows.zip eps))).length = count := zip_states_length hn1 ha (by simp [hr, he])
  have hstate : ∀ (i : Nat) (s : NfaState), (nfaOf names alphabet initial accepting rows eps).states[i]? = some s →
      names[i]? = some s.name ∧ rows[i]? = some s.transitions ∧ eps[i]? = some s.epsilonTransitions ∧ (s.initial = true ↔ i = initial) := by
    intro i s hs
    simp only [nfaOf, List.getElem?_map, List.getElem?_zipIdx, Option.map_eq_some_iff, List.getElem?_zip_eq_some] at hs
    obtain ⟨⟨⟨nm, ac, row, ep⟩, j⟩, ⟨⟨nm', ac', row', ep'⟩, ⟨h1, h2, h3, h3'⟩, h4⟩, rfl⟩ := hs
    cases h4
    exact ⟨h1, h3, h3', by simp⟩
  have hcount : (nfaOf names alphabet initial accepting rows eps).states.length = count := by simp [nfaOf, hlen]
  have hnames : (nfaOf names alphabet initial accepting rows eps).states.map (·.name) = names := by
    apply List.ext_getElem?
    intro i
    rw [List.getElem?_map]
    cases hs : (nfaOf names alphabet initial accepting rows eps).states[i]? with
    | some s => rw [(hstate i s hs).1]; rfl
    | none =>
      rw [List.getElem?_eq_none_iff] at hs
      rw [Option.map_none, eq_comm, List.getElem?_eq_none_iff]
      omega
  refine ⟨⟨hal, by rw [hnames]; exact hn2, ?_, ?_, ?_, by rw [hcount]; exact hi, ?_⟩, rfl, ?_⟩
  · intro s hs
    obtain ⟨i, hs⟩ := List.mem_iff_getElem?.1 hs
    exact (hrow _ (List.mem_of_getElem? (hstate i s hs).2.1)).1
  · intro s hs ts hts t ht
    obtain ⟨i, hs⟩ := List.mem_iff_getElem?.1 hs
    rw [hcount]
    exact targets_lt ((hrow _ (List.mem_of_getElem? (hstate i s hs).2.1)).2 ts hts) t ht
  · intro s hs t ht
    obtain ⟨i, hs⟩ := List.mem_iff_getElem?.1 hs
    rw [hcount]
    exact targets_lt (heps _ (List.mem_of_getElem? (hstate i s hs).2.2.1)) t ht
  · intro i s hs
    exact (hstate i s hs).2.2.2
  · intro s hs
    obtain ⟨i, hs⟩ := List.mem_iff_getElem?.1 hs
    exact hn3 _ (List.mem_of_getElem? (hstate i s hs).1)

theorem genDfa_facts {d : Dfa} (h : GenDfa d) :
    d.WF ∧ d.alphabet ≠ [] ∧ (∀ e ∈ d.alphabet, TableText.Name e) ∧ ∀ s ∈ d.states, TableText.Name s.name := by
  obtain ⟨count, al, h1, ⟨h2, h3, h4⟩, h5⟩ := h
  obtain ⟨a, b, c⟩ := drawnDfa_facts h3 h5
  rw [b]
  refine ⟨a, ?_, h4, c⟩
  rintro rfl
  simp at h2; omega

theorem genNfa_facts {n : Nfa} (h : GenNfa n) :
    n.WF ∧ (∀ e ∈ n.alphabet, TableText.Name e) ∧ ∀ s ∈ n.states, TableText.Name s.name := by
  obtain ⟨count, al, h1, ⟨h2, h3, h4⟩, h5⟩ := h
  obtain ⟨a, b, c⟩ := drawnNfa_facts h3 h5
  rw [b]
  exact ⟨a, h4, c⟩

theorem ofNat_toNat_small {n : Nat} (h : n < 128) : (Char.ofNat n).toNat = n := by
  have hv : n.isValidChar := Or.inl (by omega)
  simp [Char.ofNat, hv, Char.toNat, Char.ofNatAux, UInt32.toNat]

theorem mem_charRange {lo hi : Char} (hhi : hi ≤ 'z') (e : Str) :
    e ∈ charRange lo hi ↔ ∃ c : Char, e = [c] ∧ lo ≤ c ∧ c ≤ hi := by
  have hz : hi.toNat < 128 := lt_of_le_of_lt (show hi.toNat ≤ 'z'.toNat from hhi) (by decide)
  simp only [charRange, List.mem_map, List.mem_range]
  constructor
  · rintro ⟨i, hi', rfl⟩
    have : (Char.ofNat (lo.toNat + i)).toNat = lo.toNat + i := ofNat_toNat_small (by omega)
    refine ⟨_, rfl, ?_, ?_⟩
    · change lo.toNat ≤ (Char.ofNat (lo.toNat + i)).toNat; omega
    · change (Char.ofNat (lo.toNat + i)).toNat ≤ hi.toNat; omega
  · rintro ⟨c, rfl, h1, h2⟩
    have h1 : lo.toNat ≤ c.toNat := h1
    have h2 : c.toNat ≤ hi.toNat := h2
    refine ⟨c.toNat - lo.toNat, by omega, ?_⟩
    rw [show lo.toNat + (c.toNat - lo.toNat) = c.toNat by omega, Char.ofNat_toNat]

theorem charRange_nodup {lo hi : Char} (hhi : hi ≤ 'z') : (charRange lo hi).Nodup := by
  have hz : hi.toNat < 128 := lt_of_le_of_lt (show hi.toNat ≤ 'z'.toNat from hhi) (by decide)
  unfold charRange
  refine List.Nodup.map_on ?_ List.nodup_range
  intro i h1 j h2 h
  rw [List.mem_range] at h1 h2
  have e := congrArg Char.toNat (List.head_eq_of_cons_eq h)
  rw [ofNat_toNat_small (by omega), ofNat_toNat_small (by omega)] at e
  omega

theorem fixedDfa_facts {lo hi : Char} {d : Dfa} (hhi : hi ≤ 'z') (h : FixedDfa lo hi d) :
    d.WF ∧ ∀ e, e ∈ d.alphabet ↔ ∃ c : Char, e = [c] ∧ lo ≤ c ∧ c ≤ hi := by
  obtain ⟨al, h1, h2⟩ := h
  obtain ⟨a, b, _⟩ := drawnDfa_facts (h1.nodup_iff.2 (charRange_nodup hhi)) h2
  refine ⟨a, fun e => ?_⟩
  rw [b, h1.mem_iff, mem_charRange hhi]

theorem fixedNfa_facts {lo hi : Char} {n : Nfa} (hhi : hi ≤ 'z') (h : FixedNfa lo hi n) :
    n.WF ∧ ∀ e, e ∈ n.alphabet ↔ ∃ c : Char, e = [c] ∧ lo ≤ c ∧ c ≤ hi := by
  obtain ⟨al, h1, h2⟩ := h
  obtain ⟨a, b, _⟩ := drawnNfa_facts (h1.nodup_iff.2 (charRange_nodup hhi)) h2
  refine ⟨a, fun e => ?_⟩
  rw [b, h1.mem_iff, mem_charRange hhi]

/-! ## Numbering of the words over `m` elements in shortlex order -/

/-- The number of a word. -/
def rank (m : Nat) (w : List Nat) : Nat := w.foldl (fun acc a => acc * m + a + 1) 0

theorem rank_concat (m : Nat) (u : List Nat) (a : Nat) : rank m (u ++ [a]) = rank m u * m + a + 1 := by simp [rank]

theorem rank_inj {m : Nat} : ∀ {u v : List Nat}, (∀ a ∈ u, a < m) → (∀ a ∈ v, a < m) → rank m u = rank m v → u = v := by
  intro u
  induction u using List.reverseRecOn with
  | nil =>
    intro v _ _ h
    rcases List.eq_nil_or_concat v with rfl | ⟨v, b, rfl⟩
    · rfl
    · rw [List.concat_eq_append, rank_concat] at h; simp [rank] at h
  | append_singleton u a ih =>
    intro v hu hv h
    rcases List.eq_nil_or_concat v with rfl | ⟨v, b, rfl⟩
    · rw [rank_concat] at h; simp [rank] at h
    · rw [List.concat_eq_append] at h hv ⊢
      rw [rank_concat, rank_concat] at h
      have ha := hu a (by simp)
      have hb := hv b (by simp)
      have h1 : rank m u * m + a = rank m v * m + b := by omega
      have hm : 0 < m := by omega
      have e1 : rank m u = rank m v := by
        have := congrArg (· / m) h1
        simpa [Nat.mul_comm _ m, Nat.mul_add_div hm, Nat.div_eq_of_lt ha, Nat.div_eq_of_lt hb] using this
      rw [e1] at h1
      rw [ih (fun x hx => hu x (by simp [hx])) (fun x hx => hv x (by simp [hx])) e1]
      congr 2
      omega

theorem lt_concat {u v : List Nat} {a b : Nat} (hl : u.length = v.length) : u ++ [a] < v ++ [b] ↔ u < v ∨ u = v ∧ a < b := by
  induction u generalizing v with
  | nil =>
    have : v = [] := List.length_eq_zero_iff.1 hl.symm
    subst this
    simp [List.cons_lt_cons_iff]
  | cons x u ih =>
    cases v with
    | nil => cases hl
    | cons y v =>
      simp only [List.cons_append, List.cons_lt_cons_iff, ih (by simpa using hl), List.cons.injEq]
      constructor
      · rintro (h | ⟨rfl, h | ⟨rfl, h⟩⟩)
        · exact Or.inl (Or.inl h)
        · exact Or.inl (Or.inr ⟨rfl, h⟩)
        · exact Or.inr ⟨⟨rfl, rfl⟩, h⟩
      · rintro ((h | ⟨rfl, h⟩) | ⟨⟨rfl, rfl⟩, h⟩)
        · exact Or.inl h
        · exact Or.inr ⟨rfl, Or.inl h⟩
        · exact Or.inr ⟨rfl, Or.inr ⟨rfl, h⟩⟩

theorem sl_concat {u v : List Nat} {a b : Nat} : SL (u ++ [a]) (v ++ [b]) ↔ SL u v ∨ u = v ∧ a < b := by
  unfold SL
  simp only [List.length_append, List.length_singleton]
  constructor
  · rintro (h | ⟨h1, h2⟩)
    · exact Or.inl (Or.inl (by omega))
    · rcases (lt_concat (by omega)).1 h2 with h | h
      · exact Or.inl (Or.inr ⟨by omega, h⟩)
      · exact Or.inr h
  · rintro ((h | ⟨h1, h2⟩) | ⟨rfl, h⟩)
    · exact Or.inl (by omega)
    · exact Or.inr ⟨by omega, (lt_concat h1).2 (Or.inl h2)⟩
    · exact Or.inr ⟨rfl, (lt_concat rfl).2 (Or.inr ⟨rfl, h⟩)⟩

theorem rank_lt_iff {m : Nat} : ∀ {u v : List Nat}, (∀ a ∈ u, a < m) → (∀ a ∈ v, a < m) → (rank m u < rank m v ↔ SL u v) := by
  intro u
  induction u using List.reverseRecOn with
  | nil =>
    intro v _ _
    rcases List.eq_nil_or_concat v with rfl | ⟨v, b, rfl⟩
    · simp [SL]
    · rw [List.concat_eq_append, rank_concat]
      simp only [SL, List.length_append, List.length_singleton, List.length_nil]
      simp [rank]
  | append_singleton u a ih =>
    intro v hu hv
    rcases List.eq_nil_or_concat v with rfl | ⟨v, b, rfl⟩
    · simp [SL, rank]
    · rw [List.concat_eq_append] at hv ⊢
      have hu' : ∀ x ∈ u, x < m := fun x hx => hu x (by simp [hx])
      have hv' : ∀ x ∈ v, x < m := fun x hx => hv x (by simp [hx])
      have ha := hu a (by simp)
      have hb := hv b (by simp)
      rw [sl_concat, ← ih hu' hv', rank_concat, rank_concat]
      rcases Nat.lt_trichotomy (rank m u) (rank m v) with h | h | h
      · have := Nat.mul_le_mul_right m (show rank m u + 1 ≤ rank m v from h)
        rw [Nat.add_mul, Nat.one_mul] at this
        constructor
        · intro _; exact Or.inl h
        · intro _; omega
      · have e := rank_inj hu' hv' h
        subst e
        constructor
        · intro h'; exact Or.inr ⟨rfl, by omega⟩
        · rintro (h' | ⟨_, h'⟩) <;> omega
      · have := Nat.mul_le_mul_right m (show rank m v + 1 ≤ rank m u from h)
        rw [Nat.add_mul, Nat.one_mul] at this
        constructor
        · intro _; omega
        · rintro (h' | ⟨rfl, h'⟩) <;> omega

theorem rank_bound {m : Nat} : ∀ {u : List Nat}, (∀ a ∈ u, a < m) → rank m u + 1 ≤ (m + 1) ^ u.length := by
  intro u
  induction u using List.reverseRecOn with
  | nil => simp [rank]
  | append_singleton u a ih =>
    intro hu
    have ha := hu a (by simp)
    have := Nat.mul_le_mul_right (m + 1) (ih (fun x hx => hu x (by simp [hx])))
    rw [rank_concat, List.length_append, List.length_singleton, pow_succ]
    have e : (rank m u + 1) * (m + 1) = rank m u * m + rank m u + m + 1 := by ring
    omega

theorem rank_carry (m : Nat) (hm : 0 < m) (j : Nat) : ∀ b : Nat,
    (List.replicate j 0).foldl (fun acc a => acc * m + a + 1) (b + 1) =
      (List.replicate j (m - 1)).foldl (fun acc a => acc * m + a + 1) b + 1 := by
  induction j with
  | zero => intro b; rfl
  | succ j ih =>
    intro b
    rw [List.replicate_succ, List.replicate_succ, List.foldl_cons, List.foldl_cons, ← ih]
    congr 1
    have : (b + 1) * m = b * m + m := by ring
    omega

/-! ## The counter enumerates all words -/

/-- Iterators which have returned the word with the number `r`. -/
structure AtWord (N m r : Nat) (it : CounterIter) : Prop where
  max : it.maxNumber + 1 = m
  returned : it.hasReturned = true
  unfinished : it.isFinished = false
  length : it.state.length = N
  len : it.len ≤ N
  small : ∀ a ∈ it.state, a < m
  zeros : ∀ i : Nat, it.len ≤ i → i < N → it.state[i]? = some 0
  rank : rank m (it.state.take it.len) = r

theorem bump_spec {m : Nat} {max : Nat} (hm : max + 1 = m) : ∀ (i j : Nat) (st : List Nat), i + j ≤ st.length → (∀ a ∈ st, a < m) →
    (∀ k : Nat, i ≤ k → k < st.length → st[k]? = some 0) →
    (∃ st', CounterIter.bump i st max = some (st', true) ∧ st'.length = st.length ∧ (∀ a ∈ st', a < m) ∧
        (∀ k : Nat, i + j ≤ k → k < st.length → st'[k]? = some 0) ∧
        rank m (st'.take (i + j)) = rank m (st.take i ++ List.replicate j max) + 1) ∨
      (CounterIter.bump i st max = some (List.replicate st.length 0, false) ∧
        rank m (List.replicate (i + j + 1) 0) = rank m (st.take i ++ List.replicate j max) + 1) := by
  have hm1 : max = m - 1 := by omega
  intro i
  induction i with
  | zero =>
    intro j st hij hsm hz
    right
    have : st = List.replicate st.length 0 := by
      rw [List.eq_replicate_iff]
      refine ⟨rfl, fun b hb => ?_⟩
      obtain ⟨k, hk⟩ := List.mem_iff_getElem?.1 hb
      have hlt := (List.getElem?_eq_some_iff.1 hk).1
      have := hz k (Nat.zero_le _) hlt
      rw [hk] at this; cases this; rfl
    refine ⟨by rw [CounterIter.bump, ← this], ?_⟩
    rw [Nat.zero_add, List.replicate_succ, List.take_zero, List.nil_append, hm1]
    have := rank_carry m (by omega) j 0
    simpa [rank] using this
  | succ i ih =>
    intro j st hij hsm hz
    have hi : i < st.length := by omega
    have hv : st[i]? = some st[i] := List.getElem?_eq_getElem hi
    have hvm : st[i] < m := hsm _ (List.getElem_mem hi)
    have htake : st.take (i + 1) = st.take i ++ [st[i]] := by rw [List.take_add_one, hv]; rfl
    rw [CounterIter.bump, hv, Option.bind_eq_bind, Option.bind_some]
    by_cases hc : st[i] + 1 > max
    · rw [if_pos hc]
      have hvmax : st[i] = max := by omega
      have hsm' : ∀ a ∈ st.set i 0, a < m := by
        intro a ha
        rcases List.mem_or_eq_of_mem_set ha with h | rfl
        · exact hsm a h
        · omega
      have hz' : ∀ k : Nat, i ≤ k → k < (st.set i 0).length → (st.set i 0)[k]? = some 0 := by
        intro k hk hk'
        rw [List.length_set] at hk'
        rw [List.getElem?_set]
        split
        · rename_i h; subst h; simp
        · exact hz k (by omega) hk'
      have := ih (j + 1) (st.set i 0) (by rw [List.length_set]; omega) hsm' hz'
      have e1 : (st.set i 0).take i ++ List.replicate (j + 1) max = st.take (i + 1) ++ List.replicate j max := by
        rw [List.take_set_of_le (Nat.le_refl i), htake, hvmax, List.replicate_succ]
        simp
      rw [e1, List.length_set, show i + (j + 1) = i + 1 + j by omega] at this
      exact this
    · rw [if_neg hc]
      left
      refine ⟨_, rfl, by simp, ?_, ?_, ?_⟩
      · intro a ha
        rcases List.mem_or_eq_of_mem_set ha with h | rfl
        · exact hsm a h
        · omega
      · intro k hk hk'
        rw [List.getElem?_set_ne (by omega)]
        exact hz k (by omega) hk'
      · have e2 : (st.set i (st[i] + 1)).take (i + 1 + j) = st.take i ++ (st[i] + 1) :: List.replicate j 0 := by
          apply List.ext_getElem?
          intro k
          rw [List.getElem?_take]
          by_cases hk : k < i + 1 + j
          · rw [if_pos hk]
            rcases Nat.lt_trichotomy k i with h | h | h
            · rw [List.getElem?_set_ne (by omega), List.getElem?_append_left (by rw [List.length_take]; omega), List.getElem?_take,
                if_pos h]
            · subst h
              rw [List.getElem?_set_self hi, List.getElem?_append_right (by rw [List.length_take]; omega), List.length_take,
                Nat.min_eq_left (by omega), Nat.sub_self]
              rfl
            · rw [List.getElem?_set_ne (by omega), hz k (by omega) (by omega),
                List.getElem?_append_right (by rw [List.length_take]; omega), List.length_take, Nat.min_eq_left (by omega)]
              rw [show k - i = (k - i - 1) + 1 by omega, List.getElem?_cons_succ, List.getElem?_replicate, if_pos (by omega)]
          · rw [if_neg hk, eq_comm, List.getElem?_eq_none_iff]
            simp
            omega
        rw [e2, htake]
        have := rank_carry m (by omega) j (rank m (st.take i ++ [st[i]]))
        rw [← hm1] at this
        simp only [rank, List.foldl_append, List.foldl_cons, List.foldl_nil] at this ⊢
        rw [← this]
        rfl

theorem next_spec {N m r : Nat} {it : CounterIter} (h : AtWord N m r it) :
    (∃ it' w, it.next = some (it', some w) ∧ AtWord N m (r + 1) it' ∧ w = it'.state.take it'.len) ∨
    ∃ it', it.next = some (it', none) ∧ it'.isFinished = true ∧ rank m (List.replicate (N + 1) 0) = r + 1 := by
  obtain ⟨h1, h2, h3, h4, h5, h6, h7, h8⟩ := h
  have hb := bump_spec h1 it.len 0 it.state (by omega) h6 (by rw [h4]; exact h7)
  unfold CounterIter.next
  rw [if_neg (by simp [h3]), if_neg (by simp [h2])]
  rw [List.replicate_zero, List.append_nil, Nat.add_zero, h8] at hb
  rcases hb with ⟨st', hb, hl, hs, hz, hr⟩ | ⟨hb, hr⟩
  · rw [hb, Option.bind_eq_bind, Option.bind_some]
    simp only [if_true]
    rw [if_neg (by omega)]
    refine Or.inl ⟨_, _, rfl, ⟨h1, h2, h3, by simp [hl, h4], h5, hs, ?_, hr⟩, rfl⟩
    intro i hi hi'
    exact hz i hi (by omega)
  · rw [hb, Option.bind_eq_bind, Option.bind_some]
    simp only [Bool.false_eq_true, if_false, List.length_replicate, h4]
    by_cases hc : it.len + 1 > N
    · rw [if_pos hc]; exact Or.inr ⟨_, rfl, rfl, by rw [← hr]; congr 2; omega⟩
    · rw [if_neg hc]
      refine Or.inl ⟨_, _, rfl, ⟨h1, h2, h3, by simp, by simp only; omega, ?_, ?_, ?_⟩, rfl⟩
      · intro a ha
        have := List.eq_of_mem_replicate ha
        omega
      · intro i _ hi'
        rw [List.getElem?_replicate, if_pos hi']
      · simp only [List.take_replicate]
        rw [Nat.min_eq_left (by omega)]
        exact hr

theorem next_new (N : Nat) {m : Nat} (hm : 1 ≤ m) : ∃ it', (CounterIter.new N (m - 1)).next = some (it', some []) ∧ AtWord N m 0 it' := by
  refine ⟨_, rfl, ⟨?_, rfl, rfl, ?_, ?_, ?_, ?_, ?_⟩⟩
  · simp only [CounterIter.new]; omega
  · simp [CounterIter.new]
  · simp [CounterIter.new]
  · intro a ha
    have := List.eq_of_mem_replicate ha
    omega
  · intro i _ hi
    simp [CounterIter.new, hi]
  · simp [CounterIter.new, rank]

/-! ## Merging two enumerations of complementary languages -/

/-- The iterator of an NFA whose pending item is the first one with a number of at least `c`. -/
structure Waiting (n : Nfa) (c : Nat) (p : WordIter × Option (List Nat)) : Prop where
  ex : ∃ it j, new n = some it ∧ p.1 = after it (j + 1) ∧ p.2 = out it j ∧
    (∀ i < j, ∀ u, out it i = some u → rank n.alphabet.length u < c) ∧ ∀ u, out it j = some u → c ≤ rank n.alphabet.length u

theorem idx_lt {n : Nfa} (hn : n.WF) {w : List Nat} (h : n.ILang w) : ∀ a ∈ w, a < n.alphabet.length := by
  obtain ⟨r, h1, _⟩ := h
  exact Nfa.ipath_idx_lt hn h1

theorem waiting_start {n : Nfa} (hn : n.WF) {it : WordIter} (h : new n = some it) : ∃ p, it.next = some p ∧ Waiting n 0 p := by
  have hok := (iterOk_new h).1
  have h2 := (after_ok hn hok 0).2
  refine ⟨(after it 1, out it 0), ?_, ⟨it, 0, h, rfl, rfl, by intro i hi; omega, fun _ _ => Nat.zero_le _⟩⟩
  unfold WordIter.next
  have : putNext it = some (after it 1) := h2
  rw [this]
  rfl

/-- A word of the language with the number awaited is the pending item. -/
theorem waiting_hit {n : Nfa} (hn : n.WF) {c : Nat} {p : WordIter × Option (List Nat)} (h : Waiting n c p) {w : List Nat}
    (hw : n.ILang w) (hr : rank n.alphabet.length w = c) : p.2 = some w := by
  obtain ⟨it, j, h1, h2, h3, h4, h5⟩ := h.ex
  obtain ⟨i, hi⟩ := out_complete hn h1 hw
  rcases Nat.lt_trichotomy i j with hlt | rfl | hlt
  · have := h4 i hlt w hi; omega
  · rw [h3]; exact hi
  · obtain ⟨p', hp1, hp2⟩ := (out_spec hn h1 i).2.2.2.1 w hi j hlt
    have h6 := h5 p' hp1
    have h7 := (rank_lt_iff (idx_lt hn ((out_spec hn h1 j).1 p' hp1).1) (idx_lt hn hw)).2 hp2
    omega

/-- Skipping a word outside the language. -/
theorem waiting_skip {n : Nfa} (hn : n.WF) {c : Nat} {p : WordIter × Option (List Nat)} (h : Waiting n c p) {w : List Nat}
    (hwm : ∀ a ∈ w, a < n.alphabet.length) (hr : rank n.alphabet.length w = c) (hne : p.2 ≠ some w) : Waiting n (c + 1) p := by
  obtain ⟨it, j, h1, h2, h3, h4, h5⟩ := h.ex
  refine ⟨it, j, h1, h2, h3, fun i hi u hu => Nat.lt_succ_of_lt (h4 i hi u hu), fun u hu => ?_⟩
  have h6 := h5 u hu
  rcases Nat.lt_or_eq_of_le h6 with h7 | h7
  · exact h7
  · refine absurd ?_ hne
    rw [h3, hu]
    congr 1
    exact rank_inj (idx_lt hn ((out_spec hn h1 j).1 u hu).1) hwm (by rw [← h7, hr])

/-- Taking the pending word. -/
theorem waiting_take {n : Nfa} (hn : n.WF) {c : Nat} {p : WordIter × Option (List Nat)} (h : Waiting n c p) {w : List Nat}
    (hr : rank n.alphabet.length w = c) (he : p.2 = some w) : ∃ p', p.1.next = some p' ∧ Waiting n (c + 1) p' := by
  obtain ⟨it, j, h1, h2, h3, h4, h5⟩ := h.ex
  have hok := (iterOk_new h1).1
  have h6 := (after_ok hn hok (j + 1)).2
  refine ⟨(after it (j + 2), out it (j + 1)), ?_, ⟨it, j + 1, h1, rfl, rfl, ?_, ?_⟩⟩
  · unfold WordIter.next
    rw [h2, h6]
    rfl
  · intro i hi u hu
    rcases Nat.lt_or_eq_of_le (Nat.le_of_lt_succ hi) with hlt | rfl
    · exact Nat.lt_succ_of_lt (h4 i hlt u hu)
    · rw [← h3, he] at hu; cases hu; omega
  · intro u hu
    obtain ⟨p', hp1, hp2⟩ := (out_spec hn h1 (j + 1)).2.2.2.1 u hu j (by omega)
    rw [← h3, he] at hp1
    cases hp1
    have := (rank_lt_iff (idx_lt hn ((out_spec hn h1 j).1 w (by rw [← h3]; exact he)).1)
      (idx_lt hn ((out_spec hn h1 (j + 1)).1 u hu).1)).2 hp2
    omega

theorem merge_step {n o : Nfa} (hn : n.WF) (ho : o.WF) {m : Nat} (h1 : n.alphabet.length = m) (h2 : o.alphabet.length = m)
    (hcompl : ∀ w : List Nat, (∀ a ∈ w, a < m) → (n.ILang w ↔ ¬ o.ILang w)) {c : Nat}
    {p q : WordIter × Option (List Nat)} (hp : Waiting n c p) (hq : Waiting o c q) {w : List Nat} (hw : ∀ a ∈ w, a < m)
    (hr : rank m w = c) (k : Nat) (it : CounterIter)
    (ih : ∀ p' q', Waiting n (c + 1) p' → Waiting o (c + 1) q' → mergeLoop k it p' q' = some ()) :
    (if p.2 == some w then (do mergeLoop k it (← p.1.next) q)
      else if q.2 == some w then (do mergeLoop k it p (← q.1.next)) else none) = some () := by
  subst h1
  by_cases hin : n.ILang w
  · have e := waiting_hit hn hp hin hr
    rw [if_pos (by rw [e]; exact beq_self_eq_true _)]
    obtain ⟨p', e1, e2⟩ := waiting_take hn hp hr e
    have hne : q.2 ≠ some w := by
      intro hc
      obtain ⟨it', j, a1, a2, a3, _⟩ := hq.ex
      exact (hcompl w hw).1 hin ((out_spec ho a1 j).1 w (by rw [← a3]; exact hc)).1
    rw [e1]
    exact ih p' q e2 (waiting_skip ho hq (by rw [h2]; exact hw) (by rw [h2]; exact hr) hne)
  · have hne : p.2 ≠ some w := by
      intro hc
      obtain ⟨it', j, a1, a2, a3, _⟩ := hp.ex
      exact hin ((out_spec hn a1 j).1 w (by rw [← a3]; exact hc)).1
    have hin' : o.ILang w := by
      by_contra hc
      exact hin ((hcompl w hw).2 hc)
    have e := waiting_hit ho hq hin' (by rw [h2]; exact hr)
    rw [if_neg (by simpa using hne), if_pos (by rw [e]; exact beq_self_eq_true _)]
    obtain ⟨q', e1, e2⟩ := waiting_take ho hq (by rw [h2]; exact hr) e
    rw [e1]
    exact ih p q' (waiting_skip hn hp hw hr hne) e2

theorem merge_ok {n o : Nfa} (hn : n.WF) (ho : o.WF) {m : Nat} (h1 : n.alphabet.length = m) (h2 : o.alphabet.length = m)
    (hcompl : ∀ w : List Nat, (∀ a ∈ w, a < m) → (n.ILang w ↔ ¬ o.ILang w)) (N : Nat) : ∀ (k : Nat) (c : Nat) (it : CounterIter)
    (p q : WordIter × Option (List Nat)), AtWord N m c it → (m + 1) ^ N < k + c + 1 → Waiting n (c + 1) p → Waiting o (c + 1) q →
    mergeLoop k it p q = some () := by
  intro k
  induction k with
  | zero =>
    intro c it p q hit hk _ _
    have hlen : (it.state.take it.len).length ≤ N := by rw [List.length_take]; exact le_trans (Nat.min_le_left _ _) hit.len
    have := rank_bound (m := m) (u := it.state.take it.len) (fun a ha => hit.small a (List.mem_of_mem_take ha))
    rw [hit.rank] at this
    have h3 : (m + 1) ^ (it.state.take it.len).length ≤ (m + 1) ^ N := Nat.pow_le_pow_right (by omega) hlen
    omega
  | succ k ih =>
    intro c it p q hit hk hp hq
    rw [mergeLoop]
    rcases next_spec hit with ⟨it', w, e1, e2, e3⟩ | ⟨it', e1, _⟩
    · rw [e1]
      simp only [Option.bind_eq_bind, Option.bind_some]
      have hw : ∀ a ∈ w, a < m := by
        subst e3
        exact fun a ha => e2.small a (List.mem_of_mem_take ha)
      refine merge_step hn ho h1 h2 hcompl hp hq hw (by rw [e3]; exact e2.rank) k it' ?_
      intro p' q' hp' hq'
      exact ih (c + 1) it' p' q' e2 (by omega) hp' hq'
    · rw [e1]; rfl

/-- The whole loop. -/
theorem merge_total {n o : Nfa} (hn : n.WF) (ho : o.WF) {m : Nat} (hm : 1 ≤ m) (h1 : n.alphabet.length = m) (h2 : o.alphabet.length = m)
    (hcompl : ∀ w : List Nat, (∀ a ∈ w, a < m) → (n.ILang w ↔ ¬ o.ILang w)) (N rounds : Nat) (hr : (m + 1) ^ N + 1 ≤ rounds)
    {p q : WordIter × Option (List Nat)} (hp : Waiting n 0 p) (hq : Waiting o 0 q) :
    mergeLoop rounds (CounterIter.new N (m - 1)) p q = some () := by
  obtain ⟨k, rfl⟩ : ∃ k, rounds = k + 1 := ⟨rounds - 1, by omega⟩
  obtain ⟨it', e1, e2⟩ := next_new N hm
  rw [mergeLoop, e1]
  simp only [Option.bind_eq_bind, Option.bind_some]
  refine merge_step hn ho h1 h2 hcompl hp hq (w := []) (by simp) (by simp [rank]) k it' ?_
  intro p' q' hp' hq'
  exact merge_ok hn ho h1 h2 hcompl N k 0 it' p' q' e2 (by omega) hp' hq'

/-! ## Generated regular expressions are sentences of the grammar -/

section regex
open RegexParser RegexTree

variable {cl : Str → Nat}

/-- What may follow a letter without joining its cluster. -/
def Cont (r : Str) : Prop := ∀ d ∈ r.head?, d.toNat < 128 ∨ d = 'ε' ∨ d = '∅'

/-- All elements are letters. -/
def Lettered (gs : List Str) : Prop := ∀ g ∈ gs, ∃ c : Char, g = [c] ∧ Letter c

theorem letter_facts {c : Char} (h : Letter c) : c.toNat < 128 ∧ c ≠ '\r' ∧ ¬ IsReserved c ∧ ¬ WhiteSpace c := by
  obtain ⟨h1, h2⟩ := h
  have h1 : 97 ≤ c.toNat := h1
  have h2 : c.toNat ≤ 122 := h2
  refine ⟨by omega, ?_, ?_, ?_⟩
  · rintro rfl; revert h1; decide
  · rintro (rfl | rfl | rfl | rfl | rfl | rfl | rfl | rfl) <;> revert h1 h2 <;> decide
  · intro h
    have : ∀ k ∈ [0x09, 0x0A, 0x0B, 0x0C, 0x0D, 0x20, 0x85, 0xA0, 0x1680, 0x2000, 0x2001, 0x2002, 0x2003, 0x2004, 0x2005, 0x2006, 0x2007,
      0x2008, 0x2009, 0x200A, 0x2028, 0x2029, 0x202F, 0x205F, 0x3000], k < 97 ∨ 122 < k := by decide
    have := this _ h
    omega

/-- A text which is a sequence of items whatever follows. -/
def SeqText (cl : Str → Nat) (x : Str) : Prop :=
  x ≠ [] ∧ Cont x ∧ ∀ r, Cont r → ∃ L gs, SeqL cl (x ++ r) r L gs ∧ Lettered gs

/-- Sequences separated by bars. -/
inductive ExprText (cl : Str → Nat) : Str → Prop
  | one {s : Str} : SeqText cl s → ExprText cl s
  | alt {s t : Str} : SeqText cl s → ExprText cl t → ExprText cl (s ++ '|' :: t)

theorem cont_append {x : Str} (h : x ≠ []) (hc : Cont x) (r : Str) : Cont (x ++ r) := by
  cases x with
  | nil => exact absurd rfl h
  | cons c x => exact hc

theorem SeqText.append {x y : Str} (hx : SeqText cl x) (hy : SeqText cl y) : SeqText cl (x ++ y) := by
  refine ⟨by simp [hx.1], cont_append hx.1 hx.2.1 y, fun r hr => ?_⟩
  obtain ⟨L, gs, h1, h2⟩ := hx.2.2 (y ++ r) (cont_append hy.1 hy.2.1 r)
  obtain ⟨M, hs, h3, h4⟩ := hy.2.2 r hr
  rw [List.append_assoc]
  refine ⟨_, _, h1.append h3, fun g hg => ?_⟩
  rcases List.mem_append.1 hg with h | h
  · exact h2 g h
  · exact h4 g h

theorem ExprText.prepend {x y : Str} (hx : SeqText cl x) (hy : ExprText cl y) : ExprText cl (x ++ y) := by
  cases hy with
  | one h => exact .one (hx.append h)
  | alt h1 h2 => rw [← List.append_assoc]; exact .alt (hx.append h1) h2

theorem ExprText.append {x y : Str} (hx : ExprText cl x) (hy : ExprText cl y) : ExprText cl (x ++ y) := by
  induction hx with
  | one h => exact hy.prepend h
  | alt h1 _ ih => rw [List.append_assoc, List.cons_append]; exact .alt h1 ih

theorem ExprText.bar {x y : Str} (hx : ExprText cl x) (hy : ExprText cl y) : ExprText cl (x ++ '|' :: y) := by
  induction hx with
  | one h => exact .alt h hy
  | alt h1 _ ih => rw [List.append_assoc, List.cons_append]; exact .alt h1 ih

theorem cont_bar (r : Str) : Cont ('|' :: r) := by
  intro d hd; cases hd; decide

theorem cont_par (r : Str) : Cont (')' :: r) := by
  intro d hd; cases hd; decide

theorem ExprText.expr {x : Str} (hx : ExprText cl x) : x ≠ [] ∧ ∀ r, Cont r → ∃ L gs, ExprL cl (x ++ r) r L gs ∧ Lettered gs := by
  induction hx with
  | one h =>
    refine ⟨h.1, fun r hr => ?_⟩
    obtain ⟨L, gs, h1, h2⟩ := h.2.2 r hr
    exact ⟨L, gs, .one h1, h2⟩
  | @alt s t h _ ih =>
    refine ⟨by simp, fun r hr => ?_⟩
    obtain ⟨L, gs, h1, h2⟩ := h.2.2 ('|' :: (t ++ r)) (cont_bar _)
    obtain ⟨M, hs, h3, h4⟩ := ih.2 r hr
    rw [List.append_assoc, List.cons_append]
    refine ⟨_, _, .alt h1 h3, fun g hg => ?_⟩
    rcases List.mem_append.1 hg with h | h
    · exact h2 g h
    · exact h4 g h

/-- A parenthesised expression followed by nothing, `*` or `+`. -/
theorem ExprText.group {x : Str} (hx : ExprText cl x) :
    SeqText cl ('(' :: x ++ [')']) ∧ SeqText cl ('(' :: x ++ [')', '*']) ∧ SeqText cl ('(' :: x ++ [')', '+']) := by
  have hc : ∀ y, Cont ('(' :: x ++ y) := by intro y d hd; cases hd; decide
  refine ⟨⟨by simp, hc _, fun r hr => ?_⟩, ⟨by simp, hc _, fun r hr => ?_⟩, ⟨by simp, hc _, fun r hr => ?_⟩⟩
  · obtain ⟨L, gs, h1, h2⟩ := hx.expr.2 (')' :: r) (cont_par _)
    refine ⟨L, gs, ?_, h2⟩
    simp only [List.cons_append, List.append_assoc, List.nil_append]
    exact .one (.atom (.par h1))
  · obtain ⟨L, gs, h1, h2⟩ := hx.expr.2 (')' :: '*' :: r) (cont_par _)
    refine ⟨KStar.kstar L, gs, ?_, h2⟩
    simp only [List.cons_append, List.append_assoc, List.nil_append]
    exact .one (.star (.par h1))
  · obtain ⟨L, gs, h1, h2⟩ := hx.expr.2 (')' :: '+' :: r) (cont_par _)
    refine ⟨L * KStar.kstar L, gs ++ gs, ?_, fun g hg => ?_⟩
    · simp only [List.cons_append, List.append_assoc, List.nil_append]
      exact .one (.plus (.par h1))
    · rcases List.mem_append.1 hg with h | h <;> exact h2 g h

theorem exprText_flatten : ∀ {ts : List Str}, ts ≠ [] → (∀ t ∈ ts, ExprText cl t) → ExprText cl ts.flatten
  | [], h, _ => absurd rfl h
  | [t], _, h => by simpa using h t (by simp)
  | t :: t' :: ts, _, h => by
    rw [List.flatten_cons]
    exact (h t (by simp)).append (exprText_flatten (by simp) (fun x hx => h x (List.mem_cons_of_mem _ hx)))

theorem exprText_join : ∀ {ts : List Str}, ts ≠ [] → (∀ t ∈ ts, ExprText cl t) → ExprText cl (joinBar ts)
  | [], h, _ => absurd rfl h
  | [t], _, h => h t (by simp)
  | t :: t' :: ts, _, h => by
    rw [joinBar]
    · exact (h t (by simp)).bar (exprText_join (by simp) (fun x hx => h x (List.mem_cons_of_mem _ hx)))
    · simp

theorem randomRegex_text (hascii : ∀ (c : Char) (r : Str), c.toNat < 128 → c ≠ '\r' →
    (∀ d ∈ r.head?, d.toNat < 128 ∨ d = 'ε' ∨ d = '∅') → cl (c :: r) = 1) {text : Str} (h : RandomRegex LetterOrSymbol text) :
    ExprText cl text := by
  induction h with
  | leaf c hc =>
    refine .one ⟨by simp, ?_, fun r hr => ?_⟩
    · intro d hd
      cases hd
      rcases hc with hc | rfl | rfl
      · exact Or.inl (letter_facts hc).1
      · exact Or.inr (Or.inl rfl)
      · exact Or.inr (Or.inr rfl)
    · rcases hc with hc | rfl | rfl
      · obtain ⟨h1, h2, h3, _⟩ := letter_facts hc
        have := AtomL.plain (cl := cl) (s := r) h3
        rw [hascii c r h1 h2 hr] at this
        exact ⟨_, _, .one (.atom this), fun g hg => ⟨c, by simpa using hg, hc⟩⟩
      · exact ⟨_, _, .one (.atom .epsilon), by intro g hg; cases hg⟩
      · exact ⟨_, _, .one (.atom .empty), by intro g hg; cases hg⟩
  | group ts hne _ ih => exact .one (exprText_flatten hne ih).group.1
  | bars ts hne _ ih => exact exprText_join hne ih
  | star t _ ih => exact .one ih.group.2.1
  | plus t _ ih => exact .one ih.group.2.2

theorem RandomRegex.mono {p q : Char → Prop} (hpq : ∀ c, p c → q c) {text : Str} (h : RandomRegex p text) : RandomRegex q text := by
  induction h with
  | leaf c hc => exact .leaf c (hpq c hc)
  | group ts hne _ ih => exact .group ts hne ih
  | bars ts hne _ ih => exact .bars ts hne ih
  | star t _ ih => exact .star t ih
  | plus t _ ih => exact .plus t ih

theorem randomRegex_expr (hascii : ∀ (c : Char) (r : Str), c.toNat < 128 → c ≠ '\r' →
    (∀ d ∈ r.head?, d.toNat < 128 ∨ d = 'ε' ∨ d = '∅') → cl (c :: r) = 1) {text : Str} (h : RandomRegex LetterOrSymbol text) :
    ∃ L gs, ExprL cl text [] L gs ∧ Lettered gs := by
  obtain ⟨L, gs, h1, h2⟩ := (randomRegex_text hascii h).expr.2 [] (by intro d hd; cases hd)
  rw [List.append_nil] at h1
  exact ⟨L, gs, h1, h2⟩

theorem reserved_not_white {c : Char} (h : IsReserved c) : ¬ WhiteSpace c := by
  rcases h with rfl | rfl | rfl | rfl | rfl | rfl | rfl | rfl <;> (unfold WhiteSpace; decide)

theorem trimmed_self {t : Str} (h : ∀ c ∈ t, ¬ WhiteSpace c) : Trimmed t t :=
  ⟨[], [], by simp, by simp, by simp, fun c hc => h c (List.mem_of_mem_head? hc), fun c hc => h c (List.mem_of_mem_getLast? hc)⟩

theorem randomRegex_chars {text : Str} (h : RandomRegex LetterOrSymbol text) : ∀ c ∈ text, Letter c ∨ IsReserved c := by
  induction h with
  | leaf c hc =>
    intro d hd
    rw [List.mem_singleton] at hd
    subst hd
    rcases hc with hc | rfl | rfl
    · exact Or.inl hc
    · exact Or.inr (by simp [IsReserved])
    · exact Or.inr (by simp [IsReserved])
  | group ts _ _ ih =>
    intro d hd
    simp only [List.cons_append, List.mem_cons, List.mem_append, List.mem_flatten, List.not_mem_nil, or_false] at hd
    rcases hd with rfl | ⟨t, h1, h2⟩ | rfl
    · exact Or.inr (by simp [IsReserved])
    · exact ih t h1 d h2
    · exact Or.inr (by simp [IsReserved])
  | bars ts _ _ ih =>
    intro d hd
    have key : ∀ ts : List Str, d ∈ joinBar ts → d = '|' ∨ ∃ t ∈ ts, d ∈ t := by
      intro ts
      induction ts with
      | nil => intro h; cases h
      | cons t ts ih =>
        cases ts with
        | nil => intro h; exact Or.inr ⟨t, by simp, h⟩
        | cons t' ts =>
          intro h
          change d ∈ t ++ '|' :: joinBar (t' :: ts) at h
          rw [List.mem_append, List.mem_cons] at h
          rcases h with h | rfl | h
          · exact Or.inr ⟨t, by simp, h⟩
          · exact Or.inl rfl
          · rcases ih h with h | ⟨u, h1, h2⟩
            · exact Or.inl h
            · exact Or.inr ⟨u, List.mem_cons_of_mem _ h1, h2⟩
    rcases key ts hd with rfl | ⟨t, h1, h2⟩
    · exact Or.inr (by simp [IsReserved])
    · exact ih t h1 d h2
  | star t _ ih =>
    intro d hd
    simp only [List.cons_append, List.mem_cons, List.mem_append, List.not_mem_nil, or_false] at hd
    rcases hd with rfl | h | rfl | rfl
    · exact Or.inr (by simp [IsReserved])
    · exact ih d h
    · exact Or.inr (by simp [IsReserved])
    · exact Or.inr (by simp [IsReserved])
  | plus t _ ih =>
    intro d hd
    simp only [List.cons_append, List.mem_cons, List.mem_append, List.not_mem_nil, or_false] at hd
    rcases hd with rfl | h | rfl | rfl
    · exact Or.inr (by simp [IsReserved])
    · exact ih d h
    · exact Or.inr (by simp [IsReserved])
    · exact Or.inr (by simp [IsReserved])

mutual

/-- The characters of a printed expression. -/
theorem toText_chars : ∀ (t : RegexTree), ∀ c ∈ toText t, IsReserved c ∨ ∃ g ∈ t.graphemes, c ∈ g
  | .seq ts, c, h => by
    rw [toText] at h
    rw [graphemes]
    exact seqText_chars ts c h
  | .alt ts, c, h => by
    rw [toText] at h
    rw [graphemes]
    simp only [List.mem_append, List.mem_singleton] at h
    rcases h with (rfl | h) | rfl
    · exact Or.inl (by simp [IsReserved])
    · exact altText_chars ts c h
    · exact Or.inl (by simp [IsReserved])
  | .rep t, c, h => by
    rw [toText] at h
    rw [graphemes]
    simp only [List.mem_append, List.mem_singleton] at h
    rcases h with ((rfl | h) | rfl) | rfl
    · exact Or.inl (by simp [IsReserved])
    · exact toText_chars t c h
    · exact Or.inl (by simp [IsReserved])
    · exact Or.inl (by simp [IsReserved])
  | .chr .epsilon, c, h => by
    rw [toText, List.mem_singleton] at h
    subst h
    exact Or.inl (by simp [IsReserved])
  | .chr .empty, c, h => by
    rw [toText, List.mem_singleton] at h
    subst h
    exact Or.inl (by simp [IsReserved])
  | .chr (.grapheme g), c, h => by
    rw [toText, graphemeText] at h
    rw [graphemes]
    split at h
    · rw [List.mem_cons] at h
      rcases h with rfl | h
      · exact Or.inl (by simp [IsReserved])
      · exact Or.inr ⟨g, by simp, h⟩
    · exact Or.inr ⟨g, by simp, h⟩

theorem seqText_chars : ∀ (ts : List RegexTree), ∀ c ∈ seqText ts, IsReserved c ∨ ∃ g ∈ graphemesList ts, c ∈ g
  | [], c, h => by rw [seqText] at h; cases h
  | t :: ts, c, h => by
    rw [seqText, List.mem_append] at h
    rw [graphemesList]
    rcases h with h | h
    · rcases toText_chars t c h with h | ⟨g, h1, h2⟩
      · exact Or.inl h
      · exact Or.inr ⟨g, List.mem_append_left _ h1, h2⟩
    · rcases seqText_chars ts c h with h | ⟨g, h1, h2⟩
      · exact Or.inl h
      · exact Or.inr ⟨g, List.mem_append_right _ h1, h2⟩

theorem altText_chars : ∀ (ts : List RegexTree), ∀ c ∈ altText ts, IsReserved c ∨ ∃ g ∈ graphemesList ts, c ∈ g
  | [], c, h => by rw [altText] at h; cases h
  | t :: ts, c, h => by
    rw [altText, List.mem_append] at h
    rw [graphemesList]
    rcases h with h | h
    · rcases toText_chars t c h with h | ⟨g, h1, h2⟩
      · exact Or.inl h
      · exact Or.inr ⟨g, List.mem_append_left _ h1, h2⟩
    · rcases altRest_chars ts c h with h | ⟨g, h1, h2⟩
      · exact Or.inl h
      · exact Or.inr ⟨g, List.mem_append_right _ h1, h2⟩

theorem altRest_chars : ∀ (ts : List RegexTree), ∀ c ∈ altRest ts, IsReserved c ∨ ∃ g ∈ graphemesList ts, c ∈ g
  | [], c, h => by rw [altRest] at h; cases h
  | t :: ts, c, h => by
    rw [altRest] at h
    simp only [List.mem_append, List.mem_singleton] at h
    rw [graphemesList]
    rcases h with (rfl | h) | h
    · exact Or.inl (by simp [IsReserved])
    · rcases toText_chars t c h with h | ⟨g, h1, h2⟩
      · exact Or.inl h
      · exact Or.inr ⟨g, List.mem_append_left _ h1, h2⟩
    · rcases altRest_chars ts c h with h | ⟨g, h1, h2⟩
      · exact Or.inl h
      · exact Or.inr ⟨g, List.mem_append_right _ h1, h2⟩

end

end regex

end PropTests
end Dandy
