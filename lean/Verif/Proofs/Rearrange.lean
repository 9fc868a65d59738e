import Verif.Spec.Rearrange
import Verif.Proofs.Validate
/-! # Rearranged tables -/

namespace Dandy

/-! ## Columns -/

theorem columns_getElem? {α : Type} {row : List α} : ∀ {σ : List Nat}, (∀ i ∈ σ, i < row.length) → ∀ j : Nat,
    (columns σ row)[j]? = (σ[j]?).bind (row[·]?)
  | [], _, j => by simp [columns]
  | i :: σ, h, j => by
    have hi : row[i]? = some (row[i]'(h i (by simp))) := List.getElem?_eq_getElem (h i (by simp))
    have ih := columns_getElem? (row := row) (σ := σ) (fun k hk => h k (by simp [hk]))
    simp only [columns] at ih ⊢
    rw [List.filterMap_cons, hi]
    cases j with
    | zero => simp [hi]
    | succ j => simpa using ih j

theorem columns_perm {α : Type} {row : List α} {σ : List Nat} (h : σ.Perm (List.range row.length)) : (columns σ row).Perm row := by
  have h1 : (columns σ row).Perm (columns (List.range row.length) row) := h.filterMap _
  have h2 : columns (List.range row.length) row = row := by
    apply List.ext_getElem?
    intro j
    rw [columns_getElem? (by simp)]
    by_cases hj : j < row.length
    · simp [hj]
    · simp only [List.getElem?_eq_none (Nat.le_of_not_lt hj)]
      rw [List.getElem?_eq_none (by simpa using hj)]; rfl
  rwa [h2] at h1

/-- The same position in two rows of the same length, before and after. -/
theorem columns_both {α β : Type} {r : List α} {l : List β} {σ : List Nat} (h : σ.Perm (List.range r.length)) (hl : l.length = r.length)
    (a : α) (b : β) : (∃ k : Nat, r[k]? = some a ∧ l[k]? = some b) ↔ ∃ k : Nat, (columns σ r)[k]? = some a ∧ (columns σ l)[k]? = some b := by
  have hr : ∀ i ∈ σ, i < r.length := fun i hi => List.mem_range.1 (h.mem_iff.1 hi)
  constructor
  · rintro ⟨k, h1, h2⟩
    have hk : k ∈ σ := h.mem_iff.2 (List.mem_range.2 (List.getElem?_eq_some_iff.1 h1).1)
    obtain ⟨j, hj⟩ := List.mem_iff_getElem?.1 hk
    refine ⟨j, ?_, ?_⟩
    · rw [columns_getElem? hr, hj, Option.bind_some, h1]
    · rw [columns_getElem? (by rw [hl]; exact hr), hj, Option.bind_some, h2]
  · rintro ⟨j, h1, h2⟩
    rw [columns_getElem? hr] at h1
    rw [columns_getElem? (by rw [hl]; exact hr)] at h2
    cases hj : σ[j]? with
    | none => simp [hj] at h1
    | some k =>
      rw [hj, Option.bind_some] at h1 h2
      exact ⟨k, h1, h2⟩

/-! ## One initial line -/

theorem oneInitial_iff {σ : Type} (f : σ → Bool) (l : List σ) : OneInitial f l ↔ l.countP f = 1 := by
  induction l with
  | nil => simp [OneInitial]
  | cons a l ih =>
    rw [List.countP_cons]
    by_cases ha : f a = true
    · rw [if_pos ha]
      have : (OneInitial f (a :: l)) ↔ ∀ x ∈ l, ¬ f x = true := by
        constructor
        · rintro ⟨i, _, hu⟩ x hx hfx
          obtain ⟨j, hj⟩ := List.mem_iff_getElem?.1 hx
          have h1 := hu 0 a (by simp) ha
          have h2 := hu (j + 1) x (by simpa using hj) hfx
          omega
        · intro h
          refine ⟨0, ⟨a, by simp, ha⟩, ?_⟩
          intro j s hj hs
          cases j with
          | zero => rfl
          | succ j => exact absurd hs (h s (List.mem_of_getElem? (by simpa using hj)))
      rw [this, ← List.countP_eq_zero]
      omega
    · rw [if_neg ha, Nat.add_zero, ← ih]
      constructor
      · rintro ⟨i, ⟨x, hx, hfx⟩, hu⟩
        cases i with
        | zero => simp at hx; subst hx; exact absurd hfx ha
        | succ i =>
          refine ⟨i, ⟨x, by simpa using hx, hfx⟩, fun j y hj hy => ?_⟩
          have := hu (j + 1) y (by simpa using hj) hy
          omega
      · rintro ⟨i, ⟨x, hx, hfx⟩, hu⟩
        refine ⟨i + 1, ⟨x, by simpa using hx, hfx⟩, fun j y hj hy => ?_⟩
        cases j with
        | zero => simp at hj; subst hj; exact absurd hy ha
        | succ j => rw [hu j y (by simpa using hj) hy]

/-! ## DFA tables -/

namespace ParsedDfa

theorem Rearranged.legal_iff {p p' : ParsedDfa} (hr : p.Rectangular) (h : p.Rearranged p') : p.Legal ↔ p'.Legal := by
  obtain ⟨σ, hσ, hhead, hst⟩ := h
  have hperm : p'.head.Perm p.head := by rw [hhead]; exact columns_perm hσ
  have hrow : ∀ s ∈ p.states, (columns σ s.transitions).Perm s.transitions := fun s hs => columns_perm (by rw [hr s hs]; exact hσ)
  have hnames : (p'.states.map (·.name)).Perm (p.states.map (·.name)) := by
    have := hst.map (·.name)
    simpa [Function.comp_def] using this
  have hmem : ∀ t, (∃ s' ∈ p'.states, s'.name = t) ↔ ∃ s' ∈ p.states, s'.name = t := fun t => by
    have := hnames.mem_iff (a := t)
    simpa using this
  have hinit : OneInitial (·.initial) p.states ↔ OneInitial (·.initial) p'.states := by
    rw [oneInitial_iff, oneInitial_iff, hst.countP_eq, List.countP_map]
    rfl
  constructor
  · intro hl
    refine ⟨hperm.nodup_iff.2 hl.head, hnames.nodup_iff.2 hl.names, ?_, ?_, hinit.1 hl.initial⟩
    · intro s hs
      obtain ⟨r, hr', rfl⟩ := List.mem_map.1 (hst.mem_iff.1 hs)
      rw [hperm.length_eq, ← hl.width r hr']
      exact (hrow r hr').length_eq
    · intro s hs t ht
      obtain ⟨r, hr', rfl⟩ := List.mem_map.1 (hst.mem_iff.1 hs)
      rw [hmem]
      exact hl.targets r hr' t ((hrow r hr').mem_iff.1 ht)
  · intro hl
    refine ⟨hperm.nodup_iff.1 hl.head, hnames.nodup_iff.1 hl.names, hr, ?_, hinit.2 hl.initial⟩
    intro s hs t ht
    rw [← hmem]
    exact hl.targets { s with transitions := columns σ s.transitions } (hst.mem_iff.2 (List.mem_map.2 ⟨s, hs, rfl⟩)) t
      ((hrow s hs).mem_iff.2 ht)

theorem Rearranged.same {p p' : ParsedDfa} (hr : p.Rectangular) (h : p.Rearranged p') : p.SameContent p' := by
  obtain ⟨σ, hσ, hhead, hst⟩ := h
  refine ⟨fun e => ?_, fun n i a => ?_, fun n e t => ?_⟩
  · rw [hhead, (columns_perm hσ).mem_iff]
  · simp only [Line, hst.mem_iff, List.mem_map]
    constructor
    · rintro ⟨s, hs, h⟩; exact ⟨_, ⟨s, hs, rfl⟩, h⟩
    · rintro ⟨_, ⟨s, hs, rfl⟩, h⟩; exact ⟨s, hs, h⟩
  · simp only [Entry, hst.mem_iff, List.mem_map]
    constructor
    · rintro ⟨s, hs, rfl, hk⟩
      refine ⟨_, ⟨s, hs, rfl⟩, rfl, ?_⟩
      rw [hhead]
      exact (columns_both hσ (hr s hs) e t).1 hk
    · rintro ⟨_, ⟨s, hs, rfl⟩, rfl, hk⟩
      refine ⟨s, hs, rfl, ?_⟩
      rw [hhead] at hk
      exact (columns_both hσ (hr s hs) e t).2 hk

/-- Walking through the table by names. -/
inductive Leads (p : ParsedDfa) : Str → Word → Str → Prop
  | nil (n : Str) : Leads p n [] n
  | cons {n e t m : Str} {w : Word} : p.Entry n e t → Leads p t w m → Leads p n (e :: w) m

theorem Leads.congr {p p' : ParsedDfa} (h : p.SameContent p') {n m : Str} {w : Word} (hl : p.Leads n w m) : p'.Leads n w m := by
  induction hl with
  | nil n => exact .nil n
  | cons he _ ih => exact .cons ((h.entries _ _ _).1 he) ih

theorem SameContent.symm {p p' : ParsedDfa} (h : p.SameContent p') : p'.SameContent p :=
  ⟨fun e => (h.elements e).symm, fun n i a => (h.lines n i a).symm, fun n e t => (h.entries n e t).symm⟩

theorem index_of_name {p : ParsedDfa} (hl : p.Legal) {i j : Nat} {s t : ParsedDfaState} (hi : p.states[i]? = some s) (hj : p.states[j]? = some t)
    (h : s.name = t.name) : i = j := by
  have h1 : (p.states.map (·.name))[i]? = some s.name := by simp [hi]
  have h2 : (p.states.map (·.name))[j]? = some s.name := by simp [hj, h]
  exact (List.getElem?_inj (List.getElem?_eq_some_iff.1 h1).1 hl.names).1 (h1.trans h2.symm)

theorem Describes.run_leads {p : ParsedDfa} {d : Dfa} (hd : p.Describes d) {q r : Nat} {w : Word} (h : d.Run q w r) :
    ∀ s, p.states[q]? = some s → ∃ s', p.states[r]? = some s' ∧ p.Leads s.name w s'.name := by
  induction h with
  | nil q => exact fun s hs => ⟨s, hs, .nil _⟩
  | @cons q i t r e w s1 h1 h2 h3 _ ih =>
    intro s hs
    obtain ⟨_, _, _, hrow⟩ := hd.rows q s s1 hs h1
    obtain ⟨hlen, hget⟩ := List.forall₂_iff_get.1 hrow
    have hi1 := (List.getElem?_eq_some_iff.1 h3).1
    have hi2 : i < s.transitions.length := hlen ▸ hi1
    obtain ⟨st, hst, hname⟩ := hget i hi1 hi2
    have ht : s1.transitions.get ⟨i, hi1⟩ = t := (List.getElem?_eq_some_iff.1 h3).2
    rw [ht] at hst
    obtain ⟨s', hs', hl⟩ := ih st hst
    refine ⟨s', hs', .cons (t := st.name) ⟨s, List.mem_of_getElem? hs, rfl, i, by rw [← hd.alphabet]; exact h2, ?_⟩ hl⟩
    rw [hname]
    exact List.getElem?_eq_getElem hi2

theorem Describes.leads_run {p : ParsedDfa} {d : Dfa} (hp : p.Legal) (hd : p.Describes d) {n m : Str} {w : Word} (h : p.Leads n w m) :
    ∀ (q : Nat) s, p.states[q]? = some s → s.name = n → ∃ (r : Nat) (s' : ParsedDfaState), p.states[r]? = some s' ∧ s'.name = m ∧ d.Run q w r := by
  induction h with
  | nil n => exact fun q s hs hn => ⟨q, s, hs, hn, .nil q⟩
  | @cons n e t m w he _ ih =>
    intro q s hs hn
    obtain ⟨s2, hs2, hn2, k, hk1, hk2⟩ := he
    obtain ⟨q2, hq2⟩ := List.mem_iff_getElem?.1 hs2
    obtain rfl : q = q2 := index_of_name hp hs hq2 (by rw [hn, hn2])
    rw [hs] at hq2; cases hq2
    have hq : q < d.states.length := by rw [hd.count]; exact (List.getElem?_eq_some_iff.1 hs).1
    have hds := List.getElem?_eq_getElem hq
    obtain ⟨_, _, _, hrow⟩ := hd.rows q s _ hs hds
    obtain ⟨hlen, hget⟩ := List.forall₂_iff_get.1 hrow
    have hk3 := (List.getElem?_eq_some_iff.1 hk2).1
    have hk4 := hlen ▸ hk3
    obtain ⟨st, hst, hname⟩ := hget k hk4 hk3
    have ht : s.transitions.get ⟨k, hk3⟩ = t := (List.getElem?_eq_some_iff.1 hk2).2
    rw [ht] at hname
    obtain ⟨r, s', hr1, hr2, hr3⟩ := ih _ st hst hname
    exact ⟨r, s', hr1, hr2, .cons hds (by rw [hd.alphabet]; exact hk1) (List.getElem?_eq_getElem hk4) hr3⟩

theorem Describes.state {p : ParsedDfa} {d : Dfa} (hd : p.Describes d) {q : Nat} {s : ParsedDfaState} (h : p.states[q]? = some s) :
    ∃ s', d.states[q]? = some s' ∧ s'.name = s.name ∧ s'.accepting = s.accepting := by
  have hq : q < d.states.length := by rw [hd.count]; exact (List.getElem?_eq_some_iff.1 h).1
  have hds := List.getElem?_eq_getElem hq
  obtain ⟨h1, _, h3, _⟩ := hd.rows q s _ h hds
  exact ⟨_, hds, h1, h3⟩

theorem Describes.state' {p : ParsedDfa} {d : Dfa} (hd : p.Describes d) {q : Nat} {s' : DfaState} (h : d.states[q]? = some s') :
    ∃ s, p.states[q]? = some s ∧ s'.name = s.name ∧ s'.accepting = s.accepting := by
  have hq : q < p.states.length := by rw [← hd.count]; exact (List.getElem?_eq_some_iff.1 h).1
  have hps := List.getElem?_eq_getElem hq
  obtain ⟨h1, _, h3, _⟩ := hd.rows q _ s' hps h
  exact ⟨_, hps, h1, h3⟩

/-- The state after a word, by names. -/
theorem Describes.inState {p : ParsedDfa} {d : Dfa} (hp : p.Legal) (hd : p.Describes d) (w : Word) (n : Str) :
    d.InState w n ↔ ∃ i a b, p.Line i true a ∧ p.Leads i w n ∧ ∃ a', p.Line n b a' := by
  obtain ⟨s0, h0, hi0⟩ := hd.initial
  constructor
  · rintro ⟨q, s', hrun, hs', rfl⟩
    obtain ⟨s, hs, hl⟩ := hd.run_leads hrun s0 h0
    obtain ⟨s2, hs2, hname, _⟩ := hd.state' hs'
    rw [hs] at hs2; cases hs2
    refine ⟨s0.name, s0.accepting, s.initial, ⟨s0, List.mem_of_getElem? h0, rfl, hi0, rfl⟩, hname ▸ hl, s.accepting,
      ⟨s, List.mem_of_getElem? hs, hname.symm, rfl, rfl⟩⟩
  · rintro ⟨i, a, _, ⟨s, hs, rfl, hi, _⟩, hl, _⟩
    obtain ⟨j, hj⟩ := List.mem_iff_getElem?.1 hs
    obtain ⟨i0, _, hu⟩ := hp.initial
    have e1 := hu j s hj hi
    have e2 := hu _ s0 h0 hi0
    obtain ⟨r, s', hr1, hr2, hr3⟩ := hd.leads_run hp hl j s hj rfl
    obtain ⟨s'', hs'', hn, _⟩ := hd.state hr1
    have : d.initialState = j := by rw [e1, e2]
    exact ⟨r, s'', by rw [this]; exact hr3, hs'', by rw [hn, hr2]⟩

theorem Describes.lang {p : ParsedDfa} {d : Dfa} (hp : p.Legal) (hd : p.Describes d) (w : Word) :
    d.Lang w ↔ ∃ n i, d.InState w n ∧ p.Line n i true := by
  constructor
  · rintro ⟨q, hrun, s', hs', hacc⟩
    obtain ⟨s, hs, hn, ha⟩ := hd.state' hs'
    exact ⟨s'.name, s.initial, ⟨q, s', hrun, hs', rfl⟩, s, List.mem_of_getElem? hs, hn.symm, rfl, ha ▸ hacc⟩
  · rintro ⟨n, i, ⟨q, s', hrun, hs', rfl⟩, s, hs, hn, _, ha⟩
    obtain ⟨s2, hs2, hn2, ha2⟩ := hd.state' hs'
    obtain ⟨j, hj⟩ := List.mem_iff_getElem?.1 hs
    obtain rfl : j = q := index_of_name hp hj hs2 (by rw [hn, hn2])
    rw [hs2] at hj; cases hj
    exact ⟨j, hrun, s', hs', by rw [ha2]; exact ha⟩

theorem same_inState {p p' : ParsedDfa} {d d' : Dfa} (hp : p.Legal) (hd : p.Describes d) (hp' : p'.Legal) (hd' : p'.Describes d')
    (h : p.SameContent p') (w : Word) (n : Str) : d.InState w n ↔ d'.InState w n := by
  rw [hd.inState hp, hd'.inState hp']
  simp only [h.lines]
  constructor
  · rintro ⟨i, a, b, h1, h2, h3⟩; exact ⟨i, a, b, h1, h2.congr h, h3⟩
  · rintro ⟨i, a, b, h1, h2, h3⟩; exact ⟨i, a, b, h1, h2.congr h.symm, h3⟩

theorem same_lang {p p' : ParsedDfa} {d d' : Dfa} (hp : p.Legal) (hd : p.Describes d) (hp' : p'.Legal) (hd' : p'.Describes d')
    (h : p.SameContent p') (w : Word) : d.Lang w ↔ d'.Lang w := by
  rw [hd.lang hp, hd'.lang hp']
  simp only [h.lines, same_inState hp hd hp' hd' h]

/-- Where a word leads from a state, by names. -/
theorem Describes.walk {p : ParsedDfa} {d : Dfa} (hp : p.Legal) (hd : p.Describes d) (n : Str) (w : Word) (m : Str) :
    d.Walk n w m ↔ (∃ i a, p.Line n i a) ∧ p.Leads n w m := by
  constructor
  · rintro ⟨q, s1, r, s2, h1, rfl, hrun, h2, rfl⟩
    obtain ⟨s, hs, hn, _⟩ := hd.state' h1
    obtain ⟨s', hs', hl⟩ := hd.run_leads hrun s hs
    obtain ⟨s3, hs3, hn3, _⟩ := hd.state' h2
    rw [hs'] at hs3; cases hs3
    rw [hn, hn3]
    exact ⟨⟨_, _, s, List.mem_of_getElem? hs, rfl, rfl, rfl⟩, hl⟩
  · rintro ⟨⟨_, _, s, hs, rfl, _⟩, hl⟩
    obtain ⟨j, hj⟩ := List.mem_iff_getElem?.1 hs
    obtain ⟨r, s', hr1, hr2, hr3⟩ := hd.leads_run hp hl j s hj rfl
    obtain ⟨s1, g1, g2, _⟩ := hd.state hj
    obtain ⟨s2, k1, k2, _⟩ := hd.state hr1
    exact ⟨j, s1, r, s2, g1, g2, hr3, k1, by rw [k2, hr2]⟩

theorem same_walk {p p' : ParsedDfa} {d d' : Dfa} (hp : p.Legal) (hd : p.Describes d) (hp' : p'.Legal) (hd' : p'.Describes d')
    (h : p.SameContent p') (n : Str) (w : Word) (m : Str) : d.Walk n w m ↔ d'.Walk n w m := by
  rw [hd.walk hp, hd'.walk hp']
  simp only [h.lines]
  exact ⟨fun ⟨h1, h2⟩ => ⟨h1, h2.congr h⟩, fun ⟨h1, h2⟩ => ⟨h1, h2.congr h.symm⟩⟩

end ParsedDfa

/-! ## NFA tables -/

theorem onePlace_iff {α : Type} [DecidableEq α] (a : α) (l : List α) :
    (∀ i j : Nat, l[i]? = some a → l[j]? = some a → i = j) ↔ l.count a ≤ 1 := by
  induction l with
  | nil => simp
  | cons b l ih =>
    by_cases hb : b = a
    · subst hb
      rw [List.count_cons_self]
      constructor
      · intro h
        have : l.count b = 0 := by
          rw [List.count_eq_zero]
          intro hm
          obtain ⟨j, hj⟩ := List.mem_iff_getElem?.1 hm
          have := h 0 (j + 1) (by simp) (by simpa using hj)
          omega
        omega
      · intro h i j hi hj
        have h0 : b ∉ l := by rw [← List.count_eq_zero]; omega
        cases i with
        | zero =>
          cases j with
          | zero => rfl
          | succ j => exact absurd (List.mem_of_getElem? (by simpa using hj)) h0
        | succ i => exact absurd (List.mem_of_getElem? (by simpa using hi)) h0
    · rw [List.count_cons_of_ne hb, ← ih]
      constructor
      · intro h i j hi hj
        have := h (i + 1) (j + 1) (by simpa using hi) (by simpa using hj)
        omega
      · intro h i j hi hj
        cases i with
        | zero => simp at hi; exact absurd hi hb
        | succ i =>
          cases j with
          | zero => simp at hj; exact absurd hj hb
          | succ j => rw [h i j (by simpa using hi) (by simpa using hj)]

namespace ParsedNfa

/-- The lines before and after. -/
theorem rows_iff {σ : List Nat} {ss rows : List ParsedNfaState}
    (h : List.Forall₂ (fun s r => r.name = s.name ∧ r.initial = s.initial ∧ r.accepting = s.accepting ∧
      List.Forall₂ (fun ts us => ∀ t, t ∈ ts ↔ t ∈ us) (columns σ s.transitions) r.transitions) ss rows) :
    rows.map (·.name) = ss.map (·.name) ∧ rows.countP (·.initial) = ss.countP (·.initial) ∧
      (∀ s ∈ ss, ∃ r ∈ rows, r.name = s.name ∧ r.initial = s.initial ∧ r.accepting = s.accepting ∧
        List.Forall₂ (fun ts us => ∀ t, t ∈ ts ↔ t ∈ us) (columns σ s.transitions) r.transitions) ∧
      ∀ r ∈ rows, ∃ s ∈ ss, r.name = s.name ∧ r.initial = s.initial ∧ r.accepting = s.accepting ∧
        List.Forall₂ (fun ts us => ∀ t, t ∈ ts ↔ t ∈ us) (columns σ s.transitions) r.transitions := by
  induction h with
  | nil => simp
  | @cons s r ss rows h1 _ ih =>
    obtain ⟨i1, i2, i3, i4⟩ := ih
    refine ⟨by simp [i1, h1.1], by simp only [List.countP_cons, i2, h1.2.1], ?_, ?_⟩
    · intro x hx
      rcases List.mem_cons.1 hx with rfl | hx
      · exact ⟨r, by simp, h1⟩
      · obtain ⟨y, hy, h⟩ := i3 x hx; exact ⟨y, by simp [hy], h⟩
    · intro x hx
      rcases List.mem_cons.1 hx with rfl | hx
      · exact ⟨s, by simp, h1⟩
      · obtain ⟨y, hy, h⟩ := i4 x hx; exact ⟨y, by simp [hy], h⟩

theorem targets_iff {l l' : List (List Str)} (h : List.Forall₂ (fun ts us => ∀ t, t ∈ ts ↔ t ∈ us) l l') (k : Nat) (t : Str) :
    (∃ ts, l[k]? = some ts ∧ t ∈ ts) ↔ ∃ us, l'[k]? = some us ∧ t ∈ us := by
  induction h generalizing k with
  | nil => simp
  | cons h1 _ ih =>
    cases k with
    | zero => simpa using h1 t
    | succ k => simpa using ih k

theorem some_target_iff {l l' : List (List Str)} (h : List.Forall₂ (fun ts us => ∀ t, t ∈ ts ↔ t ∈ us) l l') (t : Str) :
    (∃ ts ∈ l, t ∈ ts) ↔ ∃ us ∈ l', t ∈ us := by
  have := targets_iff h
  constructor
  · rintro ⟨ts, hts, ht⟩
    obtain ⟨k, hk⟩ := List.mem_iff_getElem?.1 hts
    obtain ⟨us, hu, h⟩ := (this k t).1 ⟨ts, hk, ht⟩
    exact ⟨us, List.mem_of_getElem? hu, h⟩
  · rintro ⟨ts, hts, ht⟩
    obtain ⟨k, hk⟩ := List.mem_iff_getElem?.1 hts
    obtain ⟨us, hu, h⟩ := (this k t).2 ⟨ts, hk, ht⟩
    exact ⟨us, List.mem_of_getElem? hu, h⟩

theorem Rearranged.legal_iff {p p' : ParsedNfa} (hr : p.Rectangular) (h : p.Rearranged p') : p.Legal ↔ p'.Legal := by
  obtain ⟨σ, rows, hσ, hhead, hrows, hst⟩ := h
  obtain ⟨r1, r2, r3, r4⟩ := rows_iff hrows
  have hperm : p'.head.Perm p.head := by rw [hhead]; exact columns_perm hσ
  have hrow : ∀ s ∈ p.states, (columns σ s.transitions).Perm s.transitions := fun s hs => columns_perm (by rw [hr s hs]; exact hσ)
  have hnames : (p'.states.map (·.name)).Perm (p.states.map (·.name)) := r1 ▸ hst.map (·.name)
  have hmem : ∀ t, (∃ s' ∈ p'.states, s'.name = t) ↔ ∃ s' ∈ p.states, s'.name = t := fun t => by
    have := hnames.mem_iff (a := t)
    simpa using this
  have hinit : OneInitial (·.initial) p.states ↔ OneInitial (·.initial) p'.states := by
    rw [oneInitial_iff, oneInitial_iff, hst.countP_eq, r2]
  have hel : p'.elements.Perm p.elements := hperm.flatMap_right _
  have heps : (∀ i j : Nat, p.head[i]? = some .eps → p.head[j]? = some .eps → i = j) ↔
      ∀ i j : Nat, p'.head[i]? = some .eps → p'.head[j]? = some .eps → i = j := by
    rw [onePlace_iff, onePlace_iff, hperm.count_eq]
  constructor
  · intro hl
    refine ⟨hel.nodup_iff.2 hl.elements, heps.1 hl.eps, hnames.nodup_iff.2 hl.names, ?_, ?_, hinit.1 hl.initial⟩
    · intro r hr'
      obtain ⟨s, hs, _, _, _, hts⟩ := r4 r (hst.mem_iff.1 hr')
      rw [hperm.length_eq, ← hl.width s hs, ← hts.length_eq]
      exact (hrow s hs).length_eq
    · intro r hr' ts hts t ht
      obtain ⟨s, hs, _, _, _, h⟩ := r4 r (hst.mem_iff.1 hr')
      obtain ⟨us, hu, htu⟩ := (some_target_iff h t).2 ⟨ts, hts, ht⟩
      rw [hmem]
      exact hl.targets s hs us ((hrow s hs).mem_iff.1 hu) t htu
  · intro hl
    refine ⟨hel.nodup_iff.1 hl.elements, heps.2 hl.eps, hnames.nodup_iff.1 hl.names, hr, ?_, hinit.2 hl.initial⟩
    intro s hs ts hts t ht
    obtain ⟨r, hr', _, _, _, h⟩ := r3 s hs
    obtain ⟨us, hu, htu⟩ := (some_target_iff h t).1 ⟨ts, (hrow s hs).mem_iff.2 hts, ht⟩
    rw [← hmem]
    exact hl.targets r (hst.mem_iff.2 hr') us hu t htu

theorem Rearranged.same {p p' : ParsedNfa} (hr : p.Rectangular) (h : p.Rearranged p') : p.SameContent p' := by
  obtain ⟨σ, rows, hσ, hhead, hrows, hst⟩ := h
  obtain ⟨_, _, r3, r4⟩ := rows_iff hrows
  refine ⟨fun e => ?_, fun n i a => ?_, fun n e t => ?_⟩
  · rw [hhead, (columns_perm hσ).mem_iff]
  · simp only [Line, hst.mem_iff]
    constructor
    · rintro ⟨s, hs, h1, h2, h3⟩
      obtain ⟨r, hr', g1, g2, g3, _⟩ := r3 s hs
      exact ⟨r, hr', g1.trans h1, g2.trans h2, g3.trans h3⟩
    · rintro ⟨r, hr', h1, h2, h3⟩
      obtain ⟨s, hs, g1, g2, g3, _⟩ := r4 r hr'
      exact ⟨s, hs, g1.symm.trans h1, g2.symm.trans h2, g3.symm.trans h3⟩
  · simp only [Entry, hst.mem_iff]
    constructor
    · rintro ⟨s, hs, rfl, k, ts, hk1, hk2, ht⟩
      obtain ⟨r, hr', g1, _, _, h⟩ := r3 s hs
      obtain ⟨k', hk1', hk2'⟩ := (columns_both hσ (hr s hs) e ts).1 ⟨k, hk1, hk2⟩
      obtain ⟨us, hu, htu⟩ := (targets_iff h k' t).1 ⟨ts, hk2', ht⟩
      exact ⟨r, hr', g1, k', us, by rw [hhead]; exact hk1', hu, htu⟩
    · rintro ⟨r, hr', rfl, k, us, hk1, hk2, ht⟩
      obtain ⟨s, hs, g1, _, _, h⟩ := r4 r hr'
      obtain ⟨ts, hts, htt⟩ := (targets_iff h k t).2 ⟨us, hk2, ht⟩
      rw [hhead] at hk1
      obtain ⟨k', hk1', hk2'⟩ := (columns_both hσ (hr s hs) e ts).2 ⟨k, hk1, hts⟩
      exact ⟨s, hs, g1.symm, k', ts, hk1', hk2', htt⟩

/-- Walking through the table by names. -/
inductive Leads (p : ParsedNfa) : Str → Word → Str → Prop
  | nil (n : Str) : Leads p n [] n
  | eps {n t m : Str} {w : Word} : p.Entry n .eps t → Leads p t w m → Leads p n w m
  | step {n e t m : Str} {w : Word} : p.Entry n (.element e) t → Leads p t w m → Leads p n (e :: w) m

theorem Leads.congr {p p' : ParsedNfa} (h : p.SameContent p') {n m : Str} {w : Word} (hl : p.Leads n w m) : p'.Leads n w m := by
  induction hl with
  | nil n => exact .nil n
  | eps he _ ih => exact .eps ((h.entries _ _ _).1 he) ih
  | step he _ ih => exact .step ((h.entries _ _ _).1 he) ih

theorem SameContent.symm {p p' : ParsedNfa} (h : p.SameContent p') : p'.SameContent p :=
  ⟨fun e => (h.elements e).symm, fun n i a => (h.lines n i a).symm, fun n e t => (h.entries n e t).symm⟩

theorem index_of_name {p : ParsedNfa} (hl : p.Legal) {i j : Nat} {s t : ParsedNfaState} (hi : p.states[i]? = some s) (hj : p.states[j]? = some t)
    (h : s.name = t.name) : i = j := by
  have h1 : (p.states.map (·.name))[i]? = some s.name := by simp [hi]
  have h2 : (p.states.map (·.name))[j]? = some s.name := by simp [hj, h]
  exact (List.getElem?_inj (List.getElem?_eq_some_iff.1 h1).1 hl.names).1 (h1.trans h2.symm)

theorem NamedBy.of_index {p : ParsedNfa} {js : List Nat} {ts : List Str} (h : p.NamedBy js ts) {j : Nat} (hj : j ∈ js) :
    ∃ st, p.states[j]? = some st ∧ st.name ∈ ts := by
  induction h with
  | nil => simp at hj
  | cons h1 _ ih =>
    rcases List.mem_cons.1 hj with rfl | hj
    · obtain ⟨st, a, b⟩ := h1; exact ⟨st, a, by simp [b]⟩
    · obtain ⟨st, a, b⟩ := ih hj; exact ⟨st, a, by simp [b]⟩

theorem NamedBy.of_name {p : ParsedNfa} {js : List Nat} {ts : List Str} (h : p.NamedBy js ts) {t : Str} (ht : t ∈ ts) :
    ∃ j ∈ js, ∃ st, p.states[j]? = some st ∧ st.name = t := by
  induction h with
  | nil => simp at ht
  | @cons j _ _ _ h1 _ ih =>
    rcases List.mem_cons.1 ht with rfl | ht
    · exact ⟨j, by simp, h1⟩
    · obtain ⟨j, a, b⟩ := ih ht; exact ⟨j, by simp [a], b⟩

theorem mem_elements {p : ParsedNfa} (e : Str) : e ∈ p.elements ↔ .element e ∈ p.head := by
  simp only [elements, List.mem_flatMap]
  constructor
  · rintro ⟨x, hx, he⟩
    cases x with
    | element y => simp at he; exact he ▸ hx
    | eps => simp at he
  · exact fun h => ⟨_, h, by simp⟩

theorem Describes.state {p : ParsedNfa} {d : Nfa} (hd : p.Describes d) {q : Nat} {s : ParsedNfaState} (h : p.states[q]? = some s) :
    ∃ s', d.states[q]? = some s' ∧ s'.name = s.name ∧ s'.accepting = s.accepting := by
  have hq : q < d.states.length := by rw [hd.count]; exact (List.getElem?_eq_some_iff.1 h).1
  have hds := List.getElem?_eq_getElem hq
  obtain ⟨h1, _, h3, _⟩ := hd.flags q s _ h hds
  exact ⟨_, hds, h1, h3⟩

theorem Describes.state' {p : ParsedNfa} {d : Nfa} (hd : p.Describes d) {q : Nat} {s' : NfaState} (h : d.states[q]? = some s') :
    ∃ s, p.states[q]? = some s ∧ s'.name = s.name ∧ s'.accepting = s.accepting := by
  have hq : q < p.states.length := by rw [← hd.count]; exact (List.getElem?_eq_some_iff.1 h).1
  have hps := List.getElem?_eq_getElem hq
  obtain ⟨h1, _, h3, _⟩ := hd.flags q _ s' hps h
  exact ⟨_, hps, h1, h3⟩

theorem Describes.path_leads {p : ParsedNfa} {d : Nfa} (hp : p.Legal) (hd : p.Describes d) {q r : Nat} {w : Word} (h : d.Path q w r) :
    ∀ s, p.states[q]? = some s → ∃ s', p.states[r]? = some s' ∧ p.Leads s.name w s'.name := by
  induction h with
  | nil q => exact fun s hs => ⟨s, hs, .nil _⟩
  | @eps q t r w s1 h1 h2 _ ih =>
    intro s hs
    by_cases he : .eps ∈ p.head
    · obtain ⟨k, hk⟩ := List.mem_iff_getElem?.1 he
      have hk2 : k < s.transitions.length := by
        rw [hp.width s (List.mem_of_getElem? hs)]; exact (List.getElem?_eq_some_iff.1 hk).1
      have hk3 := List.getElem?_eq_getElem hk2
      obtain ⟨st, hst, hm⟩ := (hd.epsilon q k s s1 _ hs h1 hk hk3).of_index h2
      obtain ⟨s', hs', hl⟩ := ih st hst
      exact ⟨s', hs', .eps ⟨s, List.mem_of_getElem? hs, rfl, k, _, hk, hk3, hm⟩ hl⟩
    · rw [hd.noEpsilon he s1 (List.mem_of_getElem? h1)] at h2
      simp at h2
  | @step q i t r e w s1 ts h1 h2 h3 h4 _ ih =>
    intro s hs
    have he : .element e ∈ p.head := by
      rw [← mem_elements, ← hd.alphabet]; exact List.mem_of_getElem? h2
    obtain ⟨k, hk⟩ := List.mem_iff_getElem?.1 he
    have hk2 : k < s.transitions.length := by
      rw [hp.width s (List.mem_of_getElem? hs)]; exact (List.getElem?_eq_some_iff.1 hk).1
    have hk3 := List.getElem?_eq_getElem hk2
    obtain ⟨js, hjs, hn⟩ := hd.columns q k i s s1 e _ hs h1 hk hk3 h2
    rw [h3] at hjs; cases hjs
    obtain ⟨st, hst, hm⟩ := hn.of_index h4
    obtain ⟨s', hs', hl⟩ := ih st hst
    exact ⟨s', hs', .step ⟨s, List.mem_of_getElem? hs, rfl, k, _, hk, hk3, hm⟩ hl⟩

theorem Describes.leads_path {p : ParsedNfa} {d : Nfa} (hp : p.Legal) (hd : p.Describes d) {n m : Str} {w : Word} (h : p.Leads n w m) :
    ∀ (q : Nat) s, p.states[q]? = some s → s.name = n → ∃ (r : Nat) (s' : ParsedNfaState), p.states[r]? = some s' ∧ s'.name = m ∧ d.Path q w r := by
  induction h with
  | nil n => exact fun q s hs hn => ⟨q, s, hs, hn, .nil q⟩
  | @eps n t m w he _ ih =>
    intro q s hs hn
    obtain ⟨s2, hs2, hn2, k, ts, hk1, hk2, ht⟩ := he
    obtain ⟨q2, hq2⟩ := List.mem_iff_getElem?.1 hs2
    obtain rfl : q = q2 := index_of_name hp hs hq2 (by rw [hn, hn2])
    rw [hs] at hq2; cases hq2
    obtain ⟨s1, h1, _⟩ := hd.state hs
    obtain ⟨j, hj, st, hst, hname⟩ := (hd.epsilon q k s s1 ts hs h1 hk1 hk2).of_name ht
    obtain ⟨r, s', hr1, hr2, hr3⟩ := ih _ st hst hname
    exact ⟨r, s', hr1, hr2, .eps h1 hj hr3⟩
  | @step n e t m w he _ ih =>
    intro q s hs hn
    obtain ⟨s2, hs2, hn2, k, ts, hk1, hk2, ht⟩ := he
    obtain ⟨q2, hq2⟩ := List.mem_iff_getElem?.1 hs2
    obtain rfl : q = q2 := index_of_name hp hs hq2 (by rw [hn, hn2])
    rw [hs] at hq2; cases hq2
    obtain ⟨s1, h1, _⟩ := hd.state hs
    have he : e ∈ d.alphabet := by rw [hd.alphabet, mem_elements]; exact List.mem_of_getElem? hk1
    obtain ⟨a, ha⟩ := List.mem_iff_getElem?.1 he
    obtain ⟨js, hjs, hnb⟩ := hd.columns q k a s s1 e ts hs h1 hk1 hk2 ha
    obtain ⟨j, hj, st, hst, hname⟩ := hnb.of_name ht
    obtain ⟨r, s', hr1, hr2, hr3⟩ := ih _ st hst hname
    exact ⟨r, s', hr1, hr2, .step h1 ha hjs hj hr3⟩

/-- The states after a word, by names. -/
theorem Describes.inState {p : ParsedNfa} {d : Nfa} (hp : p.Legal) (hd : p.Describes d) (w : Word) (n : Str) :
    d.InState w n ↔ ∃ i a b, p.Line i true a ∧ p.Leads i w n ∧ ∃ a', p.Line n b a' := by
  obtain ⟨s0, h0, hi0⟩ := hd.initial
  constructor
  · rintro ⟨q, s', hrun, hs', rfl⟩
    obtain ⟨s, hs, hl⟩ := hd.path_leads hp hrun s0 h0
    obtain ⟨s2, hs2, hname, _⟩ := hd.state' hs'
    rw [hs] at hs2; cases hs2
    refine ⟨s0.name, s0.accepting, s.initial, ⟨s0, List.mem_of_getElem? h0, rfl, hi0, rfl⟩, hname ▸ hl, s.accepting,
      ⟨s, List.mem_of_getElem? hs, hname.symm, rfl, rfl⟩⟩
  · rintro ⟨i, a, _, ⟨s, hs, rfl, hi, _⟩, hl, _⟩
    obtain ⟨j, hj⟩ := List.mem_iff_getElem?.1 hs
    obtain ⟨i0, _, hu⟩ := hp.initial
    have e1 := hu j s hj hi
    have e2 := hu _ s0 h0 hi0
    obtain ⟨r, s', hr1, hr2, hr3⟩ := hd.leads_path hp hl j s hj rfl
    obtain ⟨s'', hs'', hn, _⟩ := hd.state hr1
    have : d.initialState = j := by rw [e1, e2]
    exact ⟨r, s'', by rw [this]; exact hr3, hs'', by rw [hn, hr2]⟩

theorem Describes.lang {p : ParsedNfa} {d : Nfa} (hp : p.Legal) (hd : p.Describes d) (w : Word) :
    d.Lang w ↔ ∃ n i, d.InState w n ∧ p.Line n i true := by
  constructor
  · rintro ⟨q, hrun, s', hs', hacc⟩
    obtain ⟨s, hs, hn, ha⟩ := hd.state' hs'
    exact ⟨s'.name, s.initial, ⟨q, s', hrun, hs', rfl⟩, s, List.mem_of_getElem? hs, hn.symm, rfl, ha ▸ hacc⟩
  · rintro ⟨n, i, ⟨q, s', hrun, hs', rfl⟩, s, hs, hn, _, ha⟩
    obtain ⟨s2, hs2, hn2, ha2⟩ := hd.state' hs'
    obtain ⟨j, hj⟩ := List.mem_iff_getElem?.1 hs
    obtain rfl : j = q := index_of_name hp hj hs2 (by rw [hn, hn2])
    rw [hs2] at hj; cases hj
    exact ⟨j, hrun, s', hs', by rw [ha2]; exact ha⟩

theorem same_inState {p p' : ParsedNfa} {d d' : Nfa} (hp : p.Legal) (hd : p.Describes d) (hp' : p'.Legal) (hd' : p'.Describes d')
    (h : p.SameContent p') (w : Word) (n : Str) : d.InState w n ↔ d'.InState w n := by
  rw [hd.inState hp, hd'.inState hp']
  simp only [h.lines]
  constructor
  · rintro ⟨i, a, b, h1, h2, h3⟩; exact ⟨i, a, b, h1, h2.congr h, h3⟩
  · rintro ⟨i, a, b, h1, h2, h3⟩; exact ⟨i, a, b, h1, h2.congr h.symm, h3⟩

theorem same_lang {p p' : ParsedNfa} {d d' : Nfa} (hp : p.Legal) (hd : p.Describes d) (hp' : p'.Legal) (hd' : p'.Describes d')
    (h : p.SameContent p') (w : Word) : d.Lang w ↔ d'.Lang w := by
  rw [hd.lang hp, hd'.lang hp']
  simp only [h.lines, same_inState hp hd hp' hd' h]

/-- Where a word leads from a state, by names. -/
theorem Describes.walk {p : ParsedNfa} {d : Nfa} (hp : p.Legal) (hd : p.Describes d) (n : Str) (w : Word) (m : Str) :
    d.Walk n w m ↔ (∃ i a, p.Line n i a) ∧ p.Leads n w m := by
  constructor
  · rintro ⟨q, s1, r, s2, h1, rfl, hrun, h2, rfl⟩
    obtain ⟨s, hs, hn, _⟩ := hd.state' h1
    obtain ⟨s', hs', hl⟩ := hd.path_leads hp hrun s hs
    obtain ⟨s3, hs3, hn3, _⟩ := hd.state' h2
    rw [hs'] at hs3; cases hs3
    rw [hn, hn3]
    exact ⟨⟨_, _, s, List.mem_of_getElem? hs, rfl, rfl, rfl⟩, hl⟩
  · rintro ⟨⟨_, _, s, hs, rfl, _⟩, hl⟩
    obtain ⟨j, hj⟩ := List.mem_iff_getElem?.1 hs
    obtain ⟨r, s', hr1, hr2, hr3⟩ := hd.leads_path hp hl j s hj rfl
    obtain ⟨s1, g1, g2, _⟩ := hd.state hj
    obtain ⟨s2, k1, k2, _⟩ := hd.state hr1
    exact ⟨j, s1, r, s2, g1, g2, hr3, k1, by rw [k2, hr2]⟩

theorem same_walk {p p' : ParsedNfa} {d d' : Nfa} (hp : p.Legal) (hd : p.Describes d) (hp' : p'.Legal) (hd' : p'.Describes d')
    (h : p.SameContent p') (n : Str) (w : Word) (m : Str) : d.Walk n w m ↔ d'.Walk n w m := by
  rw [hd.walk hp, hd'.walk hp']
  simp only [h.lines]
  exact ⟨fun ⟨h1, h2⟩ => ⟨h1, h2.congr h⟩, fun ⟨h1, h2⟩ => ⟨h1, h2.congr h.symm⟩⟩

end ParsedNfa

/-! ## Numbers of lines -/

theorem ParsedDfa.same_count {p p' : ParsedDfa} (hp : p.Legal) (hp' : p'.Legal) (h : p.SameContent p') : p.states.length = p'.states.length := by
  have hm : ∀ n, n ∈ p.states.map (·.name) ↔ n ∈ p'.states.map (·.name) := by
    intro n
    have e : ∀ q : ParsedDfa, n ∈ q.states.map (·.name) ↔ ∃ i a, q.Line n i a := fun q => by
      simp only [List.mem_map, Line]
      exact ⟨fun ⟨s, h1, h2⟩ => ⟨_, _, s, h1, h2, rfl, rfl⟩, fun ⟨_, _, s, h1, h2, _⟩ => ⟨s, h1, h2⟩⟩
    rw [e, e]; simp only [h.lines]
  have := ((List.perm_ext_iff_of_nodup hp.names hp'.names).2 hm).length_eq
  simpa using this

theorem ParsedNfa.same_count {p p' : ParsedNfa} (hp : p.Legal) (hp' : p'.Legal) (h : p.SameContent p') : p.states.length = p'.states.length := by
  have hm : ∀ n, n ∈ p.states.map (·.name) ↔ n ∈ p'.states.map (·.name) := by
    intro n
    have e : ∀ q : ParsedNfa, n ∈ q.states.map (·.name) ↔ ∃ i a, q.Line n i a := fun q => by
      simp only [List.mem_map, Line]
      exact ⟨fun ⟨s, h1, h2⟩ => ⟨_, _, s, h1, h2, rfl, rfl⟩, fun ⟨_, _, s, h1, h2, _⟩ => ⟨s, h1, h2⟩⟩
    rw [e, e]; simp only [h.lines]
  have := ((List.perm_ext_iff_of_nodup hp.names hp'.names).2 hm).length_eq
  simpa using this

end Dandy
