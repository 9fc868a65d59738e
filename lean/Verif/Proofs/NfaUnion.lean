import Verif.Proofs.NfaCore
import Verif.Proofs.DfaProduct
/-! # Union of NFAs: lemmas -/

namespace Dandy
namespace Nfa

/-! ## The translation of alphabets -/

theorem alphabetTranslation_eq {source target : List Str} (h : ∀ e ∈ source, e ∈ target) :
    alphabetTranslation source target = some (source.map (fun e => target.idxOf e)) := by
  unfold alphabetTranslation
  apply mapM_some
  intro e he
  have h1 := List.idxOf_lt_length_of_mem (h e he)
  rw [List.findIdx?_eq_some_iff_getElem]
  refine ⟨h1, by simp, ?_⟩
  intro j hj
  have := List.not_of_lt_findIdx (p := (· == e)) (xs := target) (i := j) (by simpa [List.idxOf] using hj)
  rw [beq_eq_false_iff_ne] at this
  simp only [beq_iff_eq]
  exact fun h => this h.symm

theorem translation_perm {source target : List Str} (hs : source.Nodup) (ht : target.Nodup)
    (h : SameElems source target) :
    (source.map (fun e => target.idxOf e)).Perm (List.range target.length) := by
  rw [List.perm_ext_iff_of_nodup _ List.nodup_range]
  · intro j
    rw [List.mem_map, List.mem_range]
    constructor
    · rintro ⟨e, he, rfl⟩; exact List.idxOf_lt_length_of_mem ((h e).1 he)
    · intro hj
      exact ⟨target[j], (h _).2 (List.getElem_mem hj), ht.idxOf_getElem j hj⟩
  · rw [List.nodup_map_iff_inj_on hs]
    intro x hx y hy hxy
    have h1 := List.getElem?_idxOf ((h x).1 hx)
    have h2 := List.getElem?_idxOf ((h y).1 hy)
    rw [hxy, h2] at h1
    exact (Option.some.inj h1).symm

theorem isIncreasing_pairwise : ∀ {l : List Nat}, isIncreasing l = true → l.Pairwise (· < ·)
  | [], _ => .nil
  | [a], _ => List.pairwise_singleton _ _
  | a :: b :: l, h => by
    simp only [isIncreasing, Bool.and_eq_true, decide_eq_true_eq] at h
    have ih := isIncreasing_pairwise h.2
    refine List.pairwise_cons.2 ⟨?_, ih⟩
    intro x hx
    rcases List.mem_cons.1 hx with rfl | hx
    · exact h.1
    · exact Nat.lt_trans h.1 ((List.pairwise_cons.1 ih).1 x hx)

theorem sorted_perm_range {l : List Nat} {k : Nat} (h : l.Perm (List.range k)) (hs : l.Pairwise (· ≤ ·)) :
    l = List.range k := by
  apply h.eq_of_pairwise (le := (· ≤ ·)) (fun a b _ _ h1 h2 => Nat.le_antisymm h1 h2) hs
  exact List.pairwise_lt_range.imp Nat.le_of_lt

theorem increasing_same {source target : List Str} (hs : source.Nodup) (ht : target.Nodup)
    (h : SameElems source target) (hi : isIncreasing (source.map (fun e => target.idxOf e)) = true) :
    source = target := by
  have h1 := sorted_perm_range (translation_perm hs ht h) ((isIncreasing_pairwise hi).imp Nat.le_of_lt)
  apply List.ext_getElem?
  intro i
  have h2 : (source.map (fun e => target.idxOf e))[i]? = (List.range target.length)[i]? := by rw [h1]
  by_cases hlt : i < target.length
  · rw [List.getElem?_map, List.getElem?_range hlt, Option.map_eq_some_iff] at h2
    obtain ⟨e, h3, h4⟩ := h2
    have h5 := List.getElem?_idxOf ((h e).1 (List.mem_of_getElem? h3))
    rw [h4] at h5
    rw [h3, h5]
  · rw [List.getElem?_map, List.getElem?_eq_none (l := List.range target.length) (by simpa using hlt)] at h2
    rw [List.getElem?_eq_none (l := target) (by omega)]
    simpa using h2

theorem reorderRow_spec {source target : List Str} (hs : source.Nodup) (ht : target.Nodup)
    (h : SameElems source target) {row : List (List Nat)} (hrow : row.length = source.length) :
    (reorderRow (source.map (fun e => target.idxOf e)) row).length = target.length ∧
    ∀ (i j : Nat) (e : Str), source[i]? = some e → target[j]? = some e →
      (reorderRow (source.map (fun e => target.idxOf e)) row)[j]? = row[i]? := by
  have hperm := translation_perm hs ht h
  generalize hL : (row.zip (source.map (fun e => target.idxOf e))).insertionSort (fun a b => a.2 ≤ b.2) = L
  have hLp : L.Perm (row.zip (source.map (fun e => target.idxOf e))) := by
    rw [← hL]; exact List.perm_insertionSort _ _
  have hsnd : L.map (·.2) = List.range target.length := by
    apply sorted_perm_range
    · refine (hLp.map (·.2)).trans ?_
      have : (row.zip (source.map (fun e => target.idxOf e))).map (·.2) = source.map (fun e => target.idxOf e) := by
        have := List.unzip_zip (l₁ := row) (l₂ := source.map (fun e => target.idxOf e)) (by simp [hrow])
        rw [List.unzip_eq_map] at this
        exact (Prod.mk.inj this).2
      rw [this]; exact hperm
    · rw [← hL, List.pairwise_map]
      have : Std.Total (fun a b : List Nat × Nat => a.2 ≤ b.2) := ⟨fun a b => Nat.le_total a.2 b.2⟩
      have : IsTrans (List Nat × Nat) (fun a b => a.2 ≤ b.2) := ⟨fun a b c => Nat.le_trans⟩
      exact List.pairwise_insertionSort (fun a b : List Nat × Nat => a.2 ≤ b.2) _
  have hLlen : L.length = target.length := by
    have := congrArg List.length hsnd; simpa using this
  refine ⟨by rw [reorderRow, hL]; simpa using hLlen, ?_⟩
  intro i j e hi hj
  have hjlt := lt_of_getElem? hj
  rw [reorderRow, hL, List.getElem?_map]
  have hjL : j < L.length := by omega
  rw [List.getElem?_eq_getElem hjL, Option.map_some]
  have h1 : L[j].2 = j := by
    have : (L.map (·.2))[j]? = (List.range target.length)[j]? := by rw [hsnd]
    rw [List.getElem?_map, List.getElem?_eq_getElem hjL, List.getElem?_range hjlt] at this
    simpa using this
  have h2 : L[j] ∈ row.zip (source.map (fun e => target.idxOf e)) := hLp.mem_iff.1 (List.getElem_mem hjL)
  obtain ⟨k, hk⟩ := List.getElem?_of_mem h2
  rw [List.getElem?_zip_eq_some] at hk
  obtain ⟨h3, h4⟩ := hk
  rw [List.getElem?_map, Option.map_eq_some_iff] at h4
  obtain ⟨e', h5, h6⟩ := h4
  have he' : e' = e := by
    have h7 := List.getElem?_idxOf ((h e').1 (List.mem_of_getElem? h5))
    rw [h6, h1, hj] at h7
    exact (Option.some.inj h7).symm
  subst he'
  have : k = i := (List.getElem?_inj (lt_of_getElem? h5) hs).1 (h5.trans hi.symm)
  subst this
  exact h3.symm

/-! ## The result of `union` -/

/-- The facts about the result of `union`. -/
structure UnionFacts (n o u : Nfa) : Prop where
  alph : u.alphabet = n.alphabet
  len : u.states.length = n.states.length + o.states.length + 1
  init : u.initialState = n.states.length + o.states.length
  rows : ∀ q < u.states.length, (u.state q).transitions.length = n.alphabet.length
  flags : ∀ q < u.states.length, ((u.state q).initial = true ↔ q = u.initialState)
  left : ∀ q < n.states.length, (u.state q).accepting = (n.state q).accepting ∧ u.ep q = n.ep q ∧
    ∀ i, u.tr q i = n.tr q i
  right : ∀ q < o.states.length, (u.state (n.states.length + q)).accepting = (o.state q).accepting ∧
    u.ep (n.states.length + q) = (o.ep q).map (· + n.states.length) ∧
    ∀ (i j : Nat) (e : Str), o.alphabet[i]? = some e → n.alphabet[j]? = some e →
      u.tr (n.states.length + q) j = (o.tr q i).map (· + n.states.length)
  new : (u.state (n.states.length + o.states.length)).accepting = false ∧
    u.ep (n.states.length + o.states.length) = [n.initialState, o.initialState + n.states.length] ∧
    ∀ i, u.tr (n.states.length + o.states.length) i = []
  names : (u.states.map (·.name)).Nodup
  names' : ((∀ q < n.states.length, (u.state q).name = (n.state q).name) ∧
      ∀ q < o.states.length, (u.state (n.states.length + q)).name = (o.state q).name) ∨
    ∀ q < n.states.length + o.states.length, (u.state q).name = numStr (q + 1)
  newname : (u.state (n.states.length + o.states.length)).name = sNew ∨
    ∃ i, (u.state (n.states.length + o.states.length)).name = numStr i

variable {n o u : Nfa}

namespace UnionFacts

theorem wf (h : UnionFacts n o u) (hn : n.WF) (ho : o.WF) (hs : SameElems n.alphabet o.alphabet) : u.WF := by
  have hlen := h.len
  have hcase : ∀ q < u.states.length, q < n.states.length ∨ (∃ p < o.states.length, q = n.states.length + p) ∨
      q = n.states.length + o.states.length := by
    intro q hq
    by_cases h1 : q < n.states.length
    · exact Or.inl h1
    · by_cases h2 : q < n.states.length + o.states.length
      · exact Or.inr (Or.inl ⟨q - n.states.length, by omega, by omega⟩)
      · exact Or.inr (Or.inr (by omega))
  refine ⟨by rw [h.alph]; exact hn.alphabet_nodup, h.names, ?_, ?_, ?_, by rw [h.init]; omega, ?_⟩
  · intro s hs
    obtain ⟨q, hq⟩ := List.getElem?_of_mem hs
    rw [h.alph, ← state_of_getElem? hq]
    exact h.rows q (lt_of_getElem? hq)
  · intro s hsm ts hts t ht
    obtain ⟨q, hq⟩ := List.getElem?_of_mem hsm
    obtain ⟨i, hi⟩ := List.getElem?_of_mem hts
    have htr : t ∈ u.tr q i := mem_tr.2 ⟨s, ts, hq, hi, ht⟩
    have hqlt := lt_of_getElem? hq
    rcases hcase q hqlt with h1 | ⟨p, h1, rfl⟩ | rfl
    · rw [(h.left q h1).2.2] at htr
      have := tr_lt hn htr; omega
    · have hilt := lt_of_getElem? hi
      rw [← state_of_getElem? hq, h.rows _ hqlt] at hilt
      have he := List.getElem?_eq_getElem hilt
      obtain ⟨k, hk⟩ := List.getElem?_of_mem ((hs _).1 (List.getElem_mem hilt))
      rw [(h.right p h1).2.2 k i _ hk he, List.mem_map] at htr
      obtain ⟨t', h2, rfl⟩ := htr
      have := tr_lt ho h2; omega
    · rw [h.new.2.2] at htr; simp at htr
  · intro s hsm t ht
    obtain ⟨q, hq⟩ := List.getElem?_of_mem hsm
    have hep : t ∈ u.ep q := mem_ep.2 ⟨s, hq, ht⟩
    rcases hcase q (lt_of_getElem? hq) with h1 | ⟨p, h1, rfl⟩ | rfl
    · rw [(h.left q h1).2.1] at hep
      have := ep_lt hn hep; omega
    · rw [(h.right p h1).2.1, List.mem_map] at hep
      obtain ⟨t', h2, rfl⟩ := hep
      have := ep_lt ho h2; omega
    · rw [h.new.2.1] at hep
      have h1 := hn.init_lt
      have h2 := ho.init_lt
      simp only [List.mem_cons, List.not_mem_nil, or_false] at hep
      rcases hep with rfl | rfl <;> omega
  · intro q s hq
    rw [← state_of_getElem? hq]
    exact h.flags q (lt_of_getElem? hq)

theorem step_left (h : UnionFacts n o u) {q t : Nat} {e : Str} (hq : q < n.states.length) :
    u.Step q e t ↔ n.Step q e t := by
  unfold Step
  rw [h.alph]
  simp only [(h.left q hq).2.2]

theorem step_right (h : UnionFacts n o u) (hs : SameElems n.alphabet o.alphabet)
    {q t : Nat} {e : Str} (hq : q < o.states.length) :
    u.Step (n.states.length + q) e t ↔ ∃ t', o.Step q e t' ∧ t = t' + n.states.length := by
  unfold Step
  rw [h.alph]
  constructor
  · rintro ⟨j, h1, h2⟩
    obtain ⟨i, hi⟩ := List.getElem?_of_mem ((hs _).1 (List.mem_of_getElem? h1))
    rw [(h.right q hq).2.2 i j e hi h1, List.mem_map] at h2
    obtain ⟨t', h3, h4⟩ := h2
    exact ⟨t', ⟨i, hi, h3⟩, h4.symm⟩
  · rintro ⟨t', ⟨i, h1, h2⟩, rfl⟩
    obtain ⟨j, hj⟩ := List.getElem?_of_mem ((hs _).2 (List.mem_of_getElem? h1))
    exact ⟨j, hj, by rw [(h.right q hq).2.2 i j e h1 hj]; exact List.mem_map.2 ⟨t', h2, rfl⟩⟩

theorem path_left (h : UnionFacts n o u) (hn : n.WF) {q r : Nat} {w : Word} (hq : q < n.states.length) :
    u.Path q w r ↔ n.Path q w r := by
  constructor
  · intro hp
    obtain ⟨x, h1, h2, rfl⟩ := path_sim (n := u) (o := n) (fun a b => a < n.states.length ∧ a = b) (by
      rintro a _ t ⟨ha, rfl⟩ ht
      rw [(h.left a ha).2.1] at ht
      exact ⟨t, .single ht, ep_lt hn ht, rfl⟩) (by
      rintro a _ e t ⟨ha, rfl⟩ ht
      rw [h.step_left ha] at ht
      obtain ⟨i, _, h4⟩ := id ht
      exact ⟨t, step_path ht, tr_lt hn h4, rfl⟩) hp q ⟨hq, rfl⟩
    exact h1
  · intro hp
    obtain ⟨x, h1, h2, rfl⟩ := path_sim (n := n) (o := u) (fun a b => a < n.states.length ∧ a = b) (by
      rintro a _ t ⟨ha, rfl⟩ ht
      exact ⟨t, .single (by rw [(h.left a ha).2.1]; exact ht), ep_lt hn ht, rfl⟩) (by
      rintro a _ e t ⟨ha, rfl⟩ ht
      obtain ⟨i, _, h4⟩ := id ht
      exact ⟨t, step_path ((h.step_left ha).2 ht), tr_lt hn h4, rfl⟩) hp q ⟨hq, rfl⟩
    exact h1

theorem path_right (h : UnionFacts n o u) (ho : o.WF) (hs : SameElems n.alphabet o.alphabet)
    {q r : Nat} {w : Word} (hq : q < o.states.length) :
    u.Path (n.states.length + q) w r ↔ ∃ r', r = n.states.length + r' ∧ o.Path q w r' := by
  constructor
  · intro hp
    obtain ⟨x, h1, h2, rfl⟩ := path_sim (n := u) (o := o)
      (fun a b => b < o.states.length ∧ a = n.states.length + b) (by
      rintro _ a t ⟨ha, rfl⟩ ht
      rw [(h.right a ha).2.1, List.mem_map] at ht
      obtain ⟨t', h3, rfl⟩ := ht
      exact ⟨t', .single h3, ep_lt ho h3, by omega⟩) (by
      rintro _ a e t ⟨ha, rfl⟩ ht
      obtain ⟨t', h3, rfl⟩ := (h.step_right hs ha).1 ht
      obtain ⟨i, _, h4⟩ := id h3
      exact ⟨t', step_path h3, tr_lt ho h4, by omega⟩) hp q ⟨hq, rfl⟩
    exact ⟨x, rfl, h1⟩
  · rintro ⟨r', rfl, hp⟩
    obtain ⟨x, h1, h2, rfl⟩ := path_sim (n := o) (o := u)
      (fun a b => a < o.states.length ∧ b = n.states.length + a) (by
      rintro a _ t ⟨ha, rfl⟩ ht
      refine ⟨n.states.length + t, .single ?_, ep_lt ho ht, rfl⟩
      rw [(h.right a ha).2.1, List.mem_map]
      exact ⟨t, ht, by omega⟩) (by
      rintro a _ e t ⟨ha, rfl⟩ ht
      obtain ⟨i, _, h4⟩ := id ht
      exact ⟨n.states.length + t, step_path ((h.step_right hs ha).2 ⟨t, ht, by omega⟩), tr_lt ho h4, rfl⟩)
      hp _ ⟨hq, rfl⟩
    exact h1

theorem lang (h : UnionFacts n o u) (hn : n.WF) (ho : o.WF) (hs : SameElems n.alphabet o.alphabet) (w : Word) :
    u.Lang w ↔ n.Lang w ∨ o.Lang w := by
  have hi1 := hn.init_lt
  have hi2 := ho.init_lt
  have haccL : ∀ q < n.states.length, (u.Acc q ↔ n.Acc q) := by
    intro q hq; rw [acc_iff, acc_iff, (h.left q hq).1]
  have haccR : ∀ q < o.states.length, (u.Acc (n.states.length + q) ↔ o.Acc q) := by
    intro q hq; rw [acc_iff, acc_iff, (h.right q hq).1]
  have hmem : ∀ t, t ∈ u.ep u.initialState ↔ t = n.initialState ∨ t = n.states.length + o.initialState := by
    intro t; rw [h.init, h.new.2.1]; simp [Nat.add_comm]
  constructor
  · rintro ⟨r, hp, ha⟩
    generalize hq : u.initialState = q at hp
    cases hp with
    | nil =>
      rw [acc_iff, ← hq, h.init, h.new.1] at ha
      exact absurd ha (by simp)
    | eps h1 h2 h3 =>
      have := (hmem _).1 (by rw [hq]; exact mem_ep.2 ⟨_, h1, h2⟩)
      rcases this with rfl | rfl
      · left
        rw [h.path_left hn hi1] at h3
        exact ⟨r, h3, (haccL r (path_lt hn hi1 h3)).1 ha⟩
      · right
        obtain ⟨r', rfl, h4⟩ := (h.path_right ho hs hi2).1 h3
        exact ⟨r', h4, (haccR r' (path_lt ho hi2 h4)).1 ha⟩
    | step h1 h2 h3 h4 _ =>
      have := mem_tr.2 ⟨_, _, h1, h3, h4⟩
      rw [← hq, h.init, h.new.2.2] at this
      simp at this
  · have hpre : ∀ t r, t ∈ u.ep u.initialState → u.Path t w r → u.Path u.initialState w r := by
      intro t r h1 h2
      exact (path_append (u := [])).2 ⟨t, path_nil_iff.2 (.single h1), h2⟩
    rintro (⟨r, hp, ha⟩ | ⟨r, hp, ha⟩)
    · exact ⟨r, hpre _ _ ((hmem _).2 (Or.inl rfl)) ((h.path_left hn hi1).2 hp), (haccL r (path_lt hn hi1 hp)).2 ha⟩
    · exact ⟨_, hpre _ _ ((hmem _).2 (Or.inr rfl)) ((h.path_right ho hs hi2).2 ⟨r, rfl, hp⟩),
        (haccR r (path_lt ho hi2 hp)).2 ha⟩

end UnionFacts

/-- The second operand with its columns brought into the order of the first alphabet. -/
def reordered (o : Nfa) (alphabet : List Str) : Nfa :=
  if isIncreasing (o.alphabet.map (fun e => alphabet.idxOf e)) then o
  else { o with states := o.states.map (fun s =>
    { s with transitions := reorderRow (o.alphabet.map (fun e => alphabet.idxOf e)) s.transitions }) }

theorem reordered_spec (ho : o.WF) {alphabet : List Str} (ha : alphabet.Nodup) (hs : SameElems alphabet o.alphabet) :
    (o.reordered alphabet).states.length = o.states.length ∧
    (o.reordered alphabet).initialState = o.initialState ∧
    ∀ q < o.states.length, ((o.reordered alphabet).state q).name = (o.state q).name ∧
      ((o.reordered alphabet).state q).initial = (o.state q).initial ∧
      ((o.reordered alphabet).state q).accepting = (o.state q).accepting ∧
      ((o.reordered alphabet).state q).epsilonTransitions = (o.state q).epsilonTransitions ∧
      ((o.reordered alphabet).state q).transitions.length = alphabet.length ∧
      ∀ (i j : Nat) (e : Str), o.alphabet[i]? = some e → alphabet[j]? = some e →
        ((o.reordered alphabet).state q).transitions[j]? = (o.state q).transitions[i]? := by
  have hs' : SameElems o.alphabet alphabet := fun e => (hs e).symm
  unfold reordered
  split
  · rename_i hi
    have heq := increasing_same ho.alphabet_nodup ha hs' hi
    refine ⟨rfl, rfl, fun q hq => ⟨rfl, rfl, rfl, rfl, by rw [← heq]; exact ho.row_len _ (state_mem hq), ?_⟩⟩
    intro i j e h1 h2
    rw [← heq] at h2
    rw [(List.getElem?_inj (lt_of_getElem? h1) ho.alphabet_nodup).1 (h1.trans h2.symm)]
  · refine ⟨by simp, rfl, ?_⟩
    intro q hq
    have hst : ({ o with states := o.states.map (fun s =>
        { s with transitions := reorderRow (o.alphabet.map (fun e => alphabet.idxOf e)) s.transitions }) } : Nfa).state q =
        { o.state q with transitions := reorderRow (o.alphabet.map (fun e => alphabet.idxOf e)) (o.state q).transitions } := by
      apply state_of_getElem?
      simp only [List.getElem?_map, getElem?_state hq, Option.map_some]
    rw [hst]
    have hr := reorderRow_spec ho.alphabet_nodup ha hs' (ho.row_len _ (state_mem hq))
    exact ⟨rfl, rfl, rfl, rfl, hr.1, hr.2⟩

theorem getD_modify {α : Type} {d : α} {l : List α} {i : Nat} {f : α → α} {q : Nat} (hq : q < l.length) :
    (l.modify i f).getD q d = if i = q then f (l.getD q d) else l.getD q d := by
  apply getD_eq_of_getElem?
  rw [List.getElem?_modify, getElem?_of_lt d hq]
  split <;> simp_all

theorem dedup_length_eq {l : List Str} (h : l.dedup.length = l.length) : l.Nodup := by
  have := (List.dedup_sublist l).eq_of_length h
  rw [← this]; exact List.nodup_dedup l

/-- The renaming step. -/
theorem rename_spec (sts : List NfaState) :
    ∃ sts', (if (sts.map (·.name)).dedup.length ≠ sts.length
        then sts.zipIdx.map (fun p => { p.1 with name := numStr (p.2 + 1) }) else sts) = sts' ∧
      sts'.length = sts.length ∧ (sts'.map (·.name)).Nodup ∧
      (∀ q < sts.length, ∃ nm, sts'.getD q default = { sts.getD q default with name := nm }) ∧
      ((∀ q < sts.length, (sts'.getD q default).name = (sts.getD q default).name) ∨
        ∀ q < sts.length, (sts'.getD q default).name = numStr (q + 1)) := by
  refine ⟨_, rfl, ?_⟩
  split
  · have hst : ∀ q < sts.length, (sts.zipIdx.map (fun p : NfaState × Nat => { p.1 with name := numStr (p.2 + 1) })).getD
        q default = { sts.getD q default with name := numStr (q + 1) } := by
      intro q hq
      apply getD_eq_of_getElem?
      simp [hq]
    refine ⟨by simp, ?_, fun q hq => ⟨_, hst q hq⟩, Or.inr (fun q hq => by rw [hst q hq])⟩
    rw [List.map_map]
    have : (sts.zipIdx.map ((·.name) ∘ fun p : NfaState × Nat => ({ p.1 with name := numStr (p.2 + 1) } : NfaState))) =
        (List.range sts.length).map (fun q => numStr (q + 1)) := by
      apply List.ext_getElem?
      intro q
      by_cases hq : q < sts.length
      · simp [hq]
      · rw [List.getElem?_eq_none (by simpa using hq), List.getElem?_eq_none (by simpa using hq)]
    rw [this, List.nodup_map_iff_inj_on List.nodup_range]
    intro x _ y _ hxy
    have := numStr_inj hxy
    omega
  · rename_i h
    push Not at h
    refine ⟨rfl, dedup_length_eq (by simpa using h), fun q _ => ⟨_, rfl⟩, Or.inl fun q _ => rfl⟩

theorem union_eq (hn : n.WF) (ho : o.WF) (hs : SameElems n.alphabet o.alphabet) :
    ∃ u, n.union o = some (.ok u) ∧ UnionFacts n o u := by
  unfold union
  rw [(alphabetEqual_iff hn.alphabet_nodup ho.alphabet_nodup).2 hs]
  simp only [Bool.not_true, Bool.false_eq_true, if_false]
  rw [alphabetTranslation_eq (fun e he => (hs e).2 he)]
  simp only [Option.bind_eq_bind, Option.bind_some, Option.pure_def, Option.some.injEq, Except.ok.injEq, exists_eq_left']
  obtain ⟨r1, r2, r3⟩ := reordered_spec ho hn.alphabet_nodup hs
  unfold reordered at r1 r2 r3
  generalize (if isIncreasing (o.alphabet.map (fun e => n.alphabet.idxOf e)) = true then o
    else { o with states := o.states.map (fun s =>
      { s with transitions := reorderRow (o.alphabet.map (fun e => n.alphabet.idxOf e)) s.transitions }) }) = o1 at *
  have hi1 := hn.init_lt
  have hi2 := ho.init_lt
  have hlen2 : (o1.remapTransitions (fun b => some (b + n.states.length))).states.length = o.states.length := by
    simp [remapTransitions, r1]
  have hinit2 : (o1.remapTransitions (fun b => some (b + n.states.length))).initialState = o.initialState := r2
  have hst2 : ∀ q < o.states.length, (o1.remapTransitions (fun b => some (b + n.states.length))).states.getD q default =
      { o1.state q with
        transitions := (o1.state q).transitions.map (fun ts => ts.map (· + n.states.length))
        epsilonTransitions := (o1.state q).epsilonTransitions.map (· + n.states.length) } := by
    intro q hq
    apply getD_eq_of_getElem?
    simp [remapTransitions, getElem?_state (n := o1) (by omega : q < o1.states.length)]
  rw [hinit2]
  generalize (o1.remapTransitions (fun b => some (b + n.states.length))).states = sts2 at *
  obtain ⟨sts', e1, e2, e3, e4, e5⟩ := rename_spec (n.states ++ sts2)
  rw [e1]
  have hL : ∀ q < n.states.length, (n.states ++ sts2).getD q default = n.state q := by
    intro q hq
    apply getD_eq_of_getElem?
    rw [List.getElem?_append_left hq, getElem?_state hq]
  have hR : ∀ q < o.states.length, (n.states ++ sts2).getD (n.states.length + q) default = sts2.getD q default := by
    intro q hq
    apply getD_eq_of_getElem?
    rw [List.getElem?_append_right (by omega), Nat.add_sub_cancel_left, getElem?_of_lt default (by omega)]
  have hlen : (n.states ++ sts2).length = n.states.length + o.states.length := by simp [hlen2]
  rw [hlen] at e2 e4 e5
  generalize hnew : ({
        name := freshName (sts'.map (·.name)) sNew
        initial := true
        accepting := false
        epsilonTransitions := [n.initialState, o.initialState + n.states.length]
        transitions := List.replicate n.alphabet.length [] } : NfaState) = new
  generalize hs3 : (sts'.modify n.initialState (fun s => { s with initial := false })).modify
    (o.initialState + n.states.length) (fun s => { s with initial := false }) = sts3
  have hlen3 : sts3.length = n.states.length + o.states.length := by rw [← hs3]; simp [e2]
  -- clearing flags
  have hst3 : ∀ q < n.states.length + o.states.length, sts3.getD q default =
      { sts'.getD q default with
        initial := if q = n.initialState ∨ q = o.initialState + n.states.length then false
          else (sts'.getD q default).initial } := by
    intro q hq
    rw [← hs3, getD_modify (by simp; omega), getD_modify (by omega)]
    by_cases h1 : q = n.initialState
    · by_cases h2 : q = o.initialState + n.states.length
      · simp [h1]
      · rw [if_neg (by omega), if_pos (by omega)]; simp [h1]
    · by_cases h2 : q = o.initialState + n.states.length
      · rw [if_pos (by omega), if_neg (by omega)]; simp [h2]
      · rw [if_neg (by omega), if_neg (by omega)]; simp [h1, h2]
  have hname3 : sts3.map (·.name) = sts'.map (·.name) := by
    apply List.ext_getElem?
    intro q
    by_cases hq : q < n.states.length + o.states.length
    · rw [List.getElem?_map, List.getElem?_map, getElem?_of_lt default (by omega : q < sts3.length),
        getElem?_of_lt default (by omega : q < sts'.length), Option.map_some, Option.map_some, hst3 q hq]
    · rw [List.getElem?_eq_none (by simp; omega), List.getElem?_eq_none (by simp; omega)]
  rw [hlen3]
  generalize hu : ({
        alphabet := n.alphabet
        states := sts3 ++ [new]
        initialState := n.states.length + o.states.length } : Nfa) = u
  have hst : ∀ q < n.states.length + o.states.length, u.state q = sts3.getD q default := by
    intro q hq
    rw [← hu]
    apply state_of_getElem?
    dsimp only
    rw [List.getElem?_append_left (by omega), getElem?_of_lt default (by omega)]
  have hstN : u.state (n.states.length + o.states.length) = new := by
    rw [← hu]
    apply state_of_getElem?
    dsimp only
    rw [List.getElem?_append_right (by omega), hlen3]; simp
  have hulen : u.states.length = n.states.length + o.states.length + 1 := by rw [← hu]; simp [hlen3]
  have huinit : u.initialState = n.states.length + o.states.length := by rw [← hu]
  have hcase : ∀ q < n.states.length + o.states.length, q < n.states.length ∨
      (∃ p < o.states.length, q = n.states.length + p) := by
    intro q hq
    by_cases h1 : q < n.states.length
    · exact Or.inl h1
    · exact Or.inr ⟨q - n.states.length, by omega, by omega⟩
  -- the states below the new one
  have huL : ∀ q < n.states.length, ∃ nm b, u.state q = { n.state q with name := nm, initial := b } := by
    intro q hq
    obtain ⟨nm, h1⟩ := e4 q (by omega)
    rw [hst q (by omega), hst3 q (by omega), h1, hL q hq]
    exact ⟨nm, _, rfl⟩
  have huR : ∀ q < o.states.length, ∃ nm b, u.state (n.states.length + q) =
      { o1.state q with
        name := nm
        initial := b
        transitions := (o1.state q).transitions.map (fun ts => ts.map (· + n.states.length))
        epsilonTransitions := (o1.state q).epsilonTransitions.map (· + n.states.length) } := by
    intro q hq
    obtain ⟨nm, h1⟩ := e4 (n.states.length + q) (by omega)
    rw [hst _ (by omega), hst3 _ (by omega), h1, hR q hq, hst2 q hq]
    exact ⟨nm, _, rfl⟩
  have hflag' : ∀ q < n.states.length + o.states.length, (u.state q).initial = false := by
    intro q hq
    rw [hst q hq, hst3 q hq]
    dsimp only
    split
    · rfl
    · rename_i h
      push Not at h
      obtain ⟨nm, h1⟩ := e4 q hq
      rw [h1]
      dsimp only
      rcases hcase q hq with h2 | ⟨p, h2, rfl⟩
      · rw [hL q h2, Bool.eq_false_iff]
        intro hc
        exact h.1 ((hn.init_flag q _ (getElem?_state h2)).1 hc)
      · rw [hR p h2, hst2 p h2, Bool.eq_false_iff]
        intro hc
        have hc' : (o.state p).initial = true := by rw [← (r3 p h2).2.1]; exact hc
        have := (ho.init_flag p _ (getElem?_state h2)).1 hc'
        omega
  refine ⟨by rw [← hu], hulen, huinit, ?_, ?_, ?_, ?_, ?_, ?_, ?_, ?_⟩
  · intro q hq
    by_cases hqN : q < n.states.length + o.states.length
    · rcases hcase q hqN with h1 | ⟨p, h1, rfl⟩
      · obtain ⟨_, _, h2⟩ := huL q h1
        rw [h2]; exact hn.row_len (n.state q) (state_mem h1)
      · obtain ⟨_, _, h2⟩ := huR p h1
        rw [h2]; simpa using (r3 p h1).2.2.2.2.1
    · have : q = n.states.length + o.states.length := by omega
      subst this
      rw [hstN, ← hnew]; simp
  · intro q hq
    by_cases hqN : q < n.states.length + o.states.length
    · rw [hflag' q hqN, huinit]; simp; omega
    · have : q = n.states.length + o.states.length := by omega
      subst this
      rw [hstN, ← hnew, huinit]; simp
  · intro q hq
    obtain ⟨_, _, h2⟩ := huL q hq
    refine ⟨by rw [h2], by unfold ep; rw [h2], fun i => by unfold tr; rw [h2]⟩
  · intro q hq
    obtain ⟨_, _, h2⟩ := huR q hq
    obtain ⟨s1, s2, s3, s4, s5, s6⟩ := r3 q hq
    refine ⟨by rw [h2]; exact s3, by unfold ep; rw [h2, ← s4], ?_⟩
    intro i j e g1 g2
    have := s6 i j e g1 g2
    unfold tr
    rw [h2]
    simp only [List.getD_eq_getElem?_getD, List.getElem?_map, this]
    cases (o.state q).transitions[i]? <;> simp
  · refine ⟨by rw [hstN, ← hnew], by unfold ep; rw [hstN, ← hnew], ?_⟩
    intro i
    unfold tr
    rw [hstN, ← hnew]
    by_cases hi : i < n.alphabet.length <;> simp [hi]
  · rw [← hu]
    simp only [List.map_append, List.map_cons, List.map_nil]
    rw [hname3, List.nodup_append]
    refine ⟨e3, by simp, ?_⟩
    intro a ha b hb
    simp only [List.mem_singleton] at hb
    subst hb
    rw [← hnew]
    intro hc
    subst hc
    exact (freshName_spec (sts'.map (·.name)) sNew).1 ha
  · rcases e5 with e5 | e5
    · left
      constructor
      · intro q hq
        rw [hst q (by omega), hst3 q (by omega)]
        dsimp only
        rw [e5 q (by omega), hL q hq]
      · intro q hq
        rw [hst _ (by omega), hst3 _ (by omega)]
        dsimp only
        rw [e5 _ (by omega), hR q hq, hst2 q hq]
        exact (r3 q hq).1
    · right
      intro q hq
      rw [hst q hq, hst3 q hq]
      exact e5 q hq
  · rw [hstN, ← hnew]
    exact (freshName_spec (sts'.map (·.name)) sNew).2

end Nfa
end Dandy
