import Mathlib.Data.List.Forall2
import Verif.Model.Table
import Verif.Proofs.FaParser
import Verif.Proofs.Validate
/-! # Printed tables are texts of the format -/

namespace Dandy
open TableText

theorem mapM_iff {α β : Type} {f : α → Option β} {l : List α} {l' : List β} :
    l.mapM f = some l' ↔ List.Forall₂ (fun a b => f a = some b) l l' := by
  induction l generalizing l' with
  | nil =>
    simp only [List.mapM_nil, List.forall₂_nil_left_iff]
    exact ⟨fun h => (Option.some.inj h).symm, fun h => congrArg some h.symm⟩
  | cons a l ih =>
    rw [List.mapM_cons]
    cases h : f a with
    | none =>
      constructor
      · intro h'; cases h'
      · intro h'; cases h' with | cons h1 _ => rw [h] at h1; cases h1
    | some b =>
      cases h2 : l.mapM f with
      | none =>
        constructor
        · intro h'; cases h'
        · intro h'
          cases h' with
          | cons _ h3 => rw [ih.2 h3] at h2; cases h2
      | some bs =>
        constructor
        · intro h'; cases h'; exact .cons h (ih.1 h2)
        · intro h'
          cases h' with
          | cons h3 h4 =>
            rw [h] at h3; cases h3
            rw [ih.2 h4] at h2; cases h2
            rfl

theorem mapM_total {α β : Type} {f : α → Option β} {l : List α} (h : ∀ a ∈ l, ∃ b, f a = some b) : ∃ l', l.mapM f = some l' := by
  induction l with
  | nil => exact ⟨[], rfl⟩
  | cons a l ih =>
    obtain ⟨b, hb⟩ := h a List.mem_cons_self
    obtain ⟨bs, hbs⟩ := ih fun x hx => h x (List.mem_cons_of_mem _ hx)
    exact ⟨b :: bs, mapM_iff.2 (.cons hb (mapM_iff.1 hbs))⟩

/-! ## Rows -/

theorem zipMax_length : ∀ (ls : List Nat) (ss : List Str), (Table.zipMax ls ss).length = ls.length
  | [], _ => by simp [Table.zipMax]
  | l :: ls, [] => by simp [Table.zipMax]
  | l :: ls, s :: ss => by simp [Table.zipMax, zipMax_length ls ss]

theorem pushRow_rows (t : Table) (row : List Str) : (t.pushRow row).rows = t.rows ++ [row] := rfl

theorem pushRow_len (t : Table) (row : List Str) : (t.pushRow row).rowLen.length = max t.rowLen.length row.length := by
  unfold Table.pushRow
  simp only [zipMax_length]
  split
  · simp; omega
  · omega

theorem foldl_pushRow_rows (rows : List (List Str)) : ∀ t : Table, (rows.foldl Table.pushRow t).rows = t.rows ++ rows := by
  induction rows with
  | nil => intro t; simp
  | cons r rows ih => intro t; rw [List.foldl_cons, ih, pushRow_rows]; simp

theorem foldl_pushRow_len (rows : List (List Str)) : ∀ t : Table, (∀ r ∈ rows, r.length ≤ t.rowLen.length) →
    (rows.foldl Table.pushRow t).rowLen.length = t.rowLen.length := by
  induction rows with
  | nil => intro t _; simp
  | cons r rows ih =>
    intro t h
    have h1 := pushRow_len t r
    have h2 := h r List.mem_cons_self
    rw [List.foldl_cons, ih _ (by intro r' hr'; rw [h1]; have := h r' (List.mem_cons_of_mem _ hr'); omega), h1]
    omega

theorem pad_eq (s : Str) (l : Nat) : Table.pad s l = s ++ List.replicate (l - s.length) ' ' := by
  unfold Table.pad
  split
  · rfl
  · rw [show l - s.length = 0 by omega]; simp

theorem blanks_replicate (k : Nat) : Blanks (List.replicate k ' ') := by
  intro c hc
  exact Or.inl (List.eq_of_mem_replicate hc)

theorem rowString_nil (ws : List Nat) (sep : Str) : Table.rowString ws sep [] = [] := by simp [Table.rowString]

theorem rowString_cons (w : Nat) (ws : List Nat) (sep c : Str) (cs : List Str) :
    Table.rowString (w :: ws) sep (c :: cs) = c ++ (List.replicate (w - c.length) ' ' ++ sep) ++ Table.rowString ws sep cs := by
  simp [Table.rowString, pad_eq]

theorem blanks_space : Blanks [' '] := by
  intro c hc; exact Or.inl (List.mem_singleton.1 hc)

/-- The cells of the entries are separated by blanks. -/
theorem rowString_spaced {α : Type} {Item : α → Str → Prop} : ∀ (as : List α) (cs : List Str) (ws : List Nat), as ≠ [] →
    List.Forall₂ Item as cs → cs.length ≤ ws.length →
    ∃ u l, Table.rowString ws [' '] cs = u ++ l ∧ Spaced Item as u ∧ Blanks l
  | [], _, _, h, _, _ => absurd rfl h
  | a :: as, [], _, _, h, _ => nomatch h
  | a :: as, c :: cs, [], _, _, h => by simp at h
  | a :: as, c :: cs, w :: ws, _, h, hl => by
    cases h with
    | cons h1 h2 =>
      rw [rowString_cons]
      have hb : Blanks (List.replicate (w - c.length) ' ' ++ [' ']) := blanks_append (blanks_replicate _) blanks_space
      by_cases hn : as = []
      · subst hn
        cases h2
        exact ⟨c, _, by rw [rowString_nil, List.append_nil], .one h1, hb⟩
      · obtain ⟨u, l, h3, h4, h5⟩ := rowString_spaced as cs ws hn h2 (by simpa using hl)
        exact ⟨c ++ (List.replicate (w - c.length) ' ' ++ [' ']) ++ u, l, by rw [h3]; simp, .cons h1 hb (by simp) h4, h5⟩

/-- The line of the alphabet. -/
theorem head_line {α : Type} {Item : α → Str → Prop} {as : List α} {cs : List Str} {ws : List Nat} (hne : as ≠ [])
    (h : List.Forall₂ Item as cs) (hl : cs.length + 3 ≤ ws.length) :
    HeadLine Item as (Table.rowString ws [' '] ([[], [], []] ++ cs)) := by
  match ws, hl with
  | w0 :: w1 :: w2 :: ws, hl =>
    simp only [List.cons_append, List.nil_append, rowString_cons]
    obtain ⟨u, l, h1, h2, h3⟩ := rowString_spaced as cs ws hne h (by simpa using hl)
    rw [h1]
    exact ⟨List.replicate (w0 - ([] : Str).length) ' ' ++ [' '] ++ (List.replicate (w1 - ([] : Str).length) ' ' ++ [' '] ++
      (List.replicate (w2 - ([] : Str).length) ' ' ++ [' '])), u, l, by simp,
      blanks_append (blanks_append (blanks_replicate _) blanks_space) (blanks_append (blanks_append (blanks_replicate _) blanks_space)
        (blanks_append (blanks_replicate _) blanks_space)), h2, Or.inl h3⟩
  | [], hl => simp at hl
  | [_], hl => simp at hl
  | [_, _], hl => simp at hl

/-- The line of a state. -/
theorem row_line {τ : Type} {Entry : τ → Str → Prop} {es : List τ} {cs : List Str} {ws : List Nat} (hne : es ≠ [])
    (h : List.Forall₂ Entry es cs) (hl : cs.length + 3 ≤ ws.length) {arrow name : Str} (ha : arrow ∈ [['-', '>'], ['→']]) (hn : Name name)
    (i a : Bool) :
    RowLine Entry i a name es
      (Table.rowString ws [' '] ([if i then arrow else [], if a then ['*'] else [], name] ++ cs)) := by
  match ws, hl with
  | w0 :: w1 :: w2 :: ws, hl =>
    simp only [List.cons_append, List.nil_append, rowString_cons]
    obtain ⟨u, l, h1, h2, h3⟩ := rowString_spaced es cs ws hne h (by simpa using hl)
    rw [h1]
    have hb : ∀ k, Blanks (List.replicate k ' ' ++ [' ']) := fun k => blanks_append (blanks_replicate _) blanks_space
    cases i with
    | true =>
      cases a with
      | true =>
        exact ⟨[], arrow ++ (List.replicate (w0 - arrow.length) ' ' ++ [' ']),
          ['*'] ++ (List.replicate (w1 - (['*'] : Str).length) ' ' ++ [' ']), name,
          List.replicate (w2 - name.length) ' ' ++ [' '], u, l, by simp, blanks_nil,
          Or.inr ⟨rfl, arrow, _, ha, rfl, hb _, by simp⟩, Or.inr ⟨rfl, ['*'], _, by simp, rfl, hb _, by simp⟩,
          ⟨rfl, hn⟩, hb _, by simp, h2, Or.inl h3⟩
      | false =>
        exact ⟨[], arrow ++ ((List.replicate (w0 - arrow.length) ' ' ++ [' ']) ++ (List.replicate (w1 - ([] : Str).length) ' ' ++ [' '])),
          [], name, List.replicate (w2 - name.length) ' ' ++ [' '], u, l, by simp, blanks_nil,
          Or.inr ⟨rfl, arrow, _, ha, rfl, blanks_append (hb _) (hb _), by simp⟩, Or.inl ⟨rfl, rfl⟩,
          ⟨rfl, hn⟩, hb _, by simp, h2, Or.inl h3⟩
    | false =>
      cases a with
      | true =>
        exact ⟨List.replicate (w0 - ([] : Str).length) ' ' ++ [' '], [],
          ['*'] ++ (List.replicate (w1 - (['*'] : Str).length) ' ' ++ [' ']), name,
          List.replicate (w2 - name.length) ' ' ++ [' '], u, l, by simp, hb _, Or.inl ⟨rfl, rfl⟩,
          Or.inr ⟨rfl, ['*'], _, by simp, rfl, hb _, by simp⟩,
          ⟨rfl, hn⟩, hb _, by simp, h2, Or.inl h3⟩
      | false =>
        exact ⟨(List.replicate (w0 - ([] : Str).length) ' ' ++ [' ']) ++ (List.replicate (w1 - ([] : Str).length) ' ' ++ [' ']), [], [],
          name, List.replicate (w2 - name.length) ' ' ++ [' '], u, l, by simp, blanks_append (hb _) (hb _), Or.inl ⟨rfl, rfl⟩,
          Or.inl ⟨rfl, rfl⟩, ⟨rfl, hn⟩, hb _, by simp, h2, Or.inl h3⟩
  | [], hl => simp at hl
  | [_], hl => simp at hl
  | [_, _], hl => simp at hl

/-! ## Whole tables -/

theorem intercalate_cons_cons (sep a b : Str) (l : List Str) :
    List.intercalate sep (a :: b :: l) = a ++ sep ++ List.intercalate sep (b :: l) := by
  simp [List.intercalate]

theorem rows_text {σ : Type} {Row : σ → Str → Prop} : ∀ (ss : List σ) (ls : List Str), ss ≠ [] → List.Forall₂ Row ss ls →
    Rows Row ss (List.intercalate ['\n'] ls)
  | [], _, h, _ => absurd rfl h
  | s :: ss, [], _, h => nomatch h
  | [s], l :: ls, _, h => by
    cases h with
    | cons h1 h2 => cases h2; simpa [List.intercalate] using Rows.one h1
  | s :: s' :: ss, l :: ls, _, h => by
    cases h with
    | cons h1 h2 =>
      match ls, h2 with
      | l' :: ls, h2 =>
        have ih := rows_text (s' :: ss) (l' :: ls) (by simp) h2
        rw [intercalate_cons_cons]
        have := Rows.cons h1 (Or.inl rfl : Eol ['\n']) Skip.nil ih
        simpa using this

theorem table_text {α σ : Type} {Item : α → Str → Prop} {Row : σ → Str → Prop} {as : List α} {ss : List σ} {h : Str} {ls : List Str}
    (hne : ss ≠ []) (hh : HeadLine Item as h) (hs : List.Forall₂ Row ss ls) : Text Item Row as ss (List.intercalate ['\n'] (h :: ls)) := by
  have : List.intercalate ['\n'] (h :: ls) = [] ++ h ++ ['\n'] ++ [] ++ List.intercalate ['\n'] ls ++ [] := by
    cases ls with
    | nil => cases hs; exact absurd rfl hne
    | cons l ls => rw [intercalate_cons_cons]; simp
  rw [this]
  exact ⟨[], h, ['\n'], [], _, [], rfl, .nil, hh, Or.inl rfl, .nil, rows_text ss ls hne hs, Or.inl rfl⟩

theorem namesOf_total {σ : Type} {name : σ → Str} {states : List σ} {cs : List Nat} (h : ∀ c ∈ cs, c < states.length) :
    ∃ ns, namesOf name states cs = some ns :=
  mapM_total fun c hc => ⟨name (states[c]'(h c hc)), by rw [List.getElem?_eq_getElem (h c hc)]; rfl⟩

theorem namesOf_iff {σ : Type} {name : σ → Str} {states : List σ} {cs : List Nat} {ns : List Str} :
    namesOf name states cs = some ns ↔ List.Forall₂ (fun j t => ∃ st, states[j]? = some st ∧ name st = t) cs ns := by
  unfold namesOf
  rw [mapM_iff]
  have : ∀ (j : Nat) (t : Str), (states[j]?.map name = some t) ↔ ∃ st, states[j]? = some st ∧ name st = t := by
    intro j t
    cases states[j]? <;> simp
  simp only [this]

/-- The text of a table of rows. -/
theorem toString_rows {h : List Str} {rows : List (List Str)} (hl : 3 ≤ h.length) (hr : ∀ r ∈ rows, r.length = h.length) :
    ∃ ws, ws.length = h.length ∧ (rows.foldl Table.pushRow (Table.empty.pushRow h)).toString [' '] =
      some (List.intercalate ['\n'] (Table.rowString ws [' '] h :: rows.map (Table.rowString ws [' ']))) := by
  have h1 : (Table.empty.pushRow h).rowLen.length = h.length := by
    rw [pushRow_len]; simp [Table.empty]
  have h2 : (rows.foldl Table.pushRow (Table.empty.pushRow h)).rowLen.length = h.length := by
    rw [foldl_pushRow_len _ _ (by intro r hr'; have := hr r hr'; omega)]
    exact h1
  have h3 : (rows.foldl Table.pushRow (Table.empty.pushRow h)).rows = h :: rows := by
    rw [foldl_pushRow_rows, pushRow_rows]; simp [Table.empty]
  generalize rows.foldl Table.pushRow (Table.empty.pushRow h) = t at h2 h3
  refine ⟨t.widths, ?_, ?_⟩
  · unfold Table.widths
    simp; omega
  · unfold Table.toString
    have : t.rowLen.isEmpty = false := by
      cases hx : t.rowLen with
      | nil => rw [hx] at h2; simp at h2; omega
      | cons => rfl
    rw [this, h3]
    simp

/-! ## DFA -/

/-- A name list and the rows of a DFA as a parsed table. -/
theorem dfa_rows {d : Dfa} (h : d.WF) : ∃ ps : List ParsedDfaState,
    List.Forall₂ (fun (s : DfaState) (p : ParsedDfaState) => p.name = s.name ∧ p.initial = s.initial ∧ p.accepting = s.accepting ∧
      namesOf (·.name) d.states s.transitions = some p.transitions) d.states ps := by
  have : ∀ l : List DfaState, (∀ s ∈ l, s ∈ d.states) → ∃ ps : List ParsedDfaState,
    List.Forall₂ (fun (s : DfaState) (p : ParsedDfaState) => p.name = s.name ∧ p.initial = s.initial ∧ p.accepting = s.accepting ∧
      namesOf (·.name) d.states s.transitions = some p.transitions) l ps := by
    intro l
    induction l with
    | nil => intro _; exact ⟨[], .nil⟩
    | cons s l ih =>
      intro hl
      obtain ⟨ps, hps⟩ := ih fun x hx => hl x (List.mem_cons_of_mem _ hx)
      obtain ⟨ns, hns⟩ := namesOf_total (name := fun s : DfaState => s.name) (states := d.states) (cs := s.transitions)
        (h.targets s (hl s List.mem_cons_self))
      exact ⟨⟨s.name, s.initial, s.accepting, ns⟩ :: ps, .cons ⟨rfl, rfl, rfl, hns⟩ hps⟩
  exact this d.states fun _ h => h

theorem forall₂_at {α β : Type} {R : α → β → Prop} {l : List α} {m : List β} (h : List.Forall₂ R l m) {i : Nat} {a : α}
    (ha : l[i]? = some a) : ∃ b, m[i]? = some b ∧ R a b := by
  induction h generalizing i with
  | nil => simp at ha
  | @cons x y l m h1 _ ih =>
    match i, ha with
    | 0, ha => cases ha; exact ⟨y, rfl, h1⟩
    | i + 1, ha =>
      obtain ⟨b, h2, h3⟩ := ih (i := i) (by simpa using ha)
      exact ⟨b, by simpa using h2, h3⟩

theorem forall₂_at' {α β : Type} {R : α → β → Prop} {l : List α} {m : List β} (h : List.Forall₂ R l m) {i : Nat} {b : β}
    (hb : m[i]? = some b) : ∃ a, l[i]? = some a ∧ R a b := forall₂_at (R := fun b a => R a b) h.flip hb

theorem names_of_parsed {σ τ : Type} {f : σ → Str} {g : τ → Str} {l : List σ} {m : List τ} (h : m.map g = l.map f) {js : List Nat}
    {ts : List Str} (hN : List.Forall₂ (fun j t => ∃ st, l[j]? = some st ∧ f st = t) js ts) :
    List.Forall₂ (fun j t => ∃ st, m[j]? = some st ∧ g st = t) js ts := by
  refine hN.imp ?_
  intro j t hj
  rw [← named_iff (f := g) (l := m), h]
  exact named_iff.2 hj

theorem forall₂_map_eq {α β : Type} {R : α → β → Prop} {f : α → Str} {g : β → Str} {l : List α} {m : List β} (h : List.Forall₂ R l m)
    (hR : ∀ a b, R a b → g b = f a) : m.map g = l.map f := by
  induction h with
  | nil => rfl
  | cons h1 _ ih => rw [List.map_cons, List.map_cons, ih, hR _ _ h1]

theorem forall₂_map_iff_right {α β γ : Type} {R : α → γ → Prop} {f : β → γ} {l : List α} {m : List β} :
    List.Forall₂ R l (m.map f) ↔ List.Forall₂ (fun a b => R a (f b)) l m := List.forall₂_map_right_iff

theorem forall₂_self {α : Type} {R : α → α → Prop} {l : List α} (h : ∀ a ∈ l, R a a) : List.Forall₂ R l l := List.forall₂_same.2 h

theorem dfa_roundtrip {d : Dfa} (h : d.WF) (hne : d.alphabet ≠ []) (hal : ∀ e ∈ d.alphabet, Name e) (hnm : ∀ s ∈ d.states, Name s.name)
    {arrow : Str} (ha : arrow ∈ [['-', '>'], ['→']]) :
    ∃ txt p, d.genTable arrow = some txt ∧ DfaText p txt ∧ Validate.dfa p = .ok d := by
  obtain ⟨ps, hps⟩ := dfa_rows h
  have hlen : ps.length = d.states.length := hps.length_eq.symm
  have hrows : d.states.mapM (d.tableRow arrow) = some (ps.map fun p =>
      [if p.initial then arrow else [], if p.accepting then ['*'] else [], p.name] ++ p.transitions) := by
    rw [mapM_iff, forall₂_map_iff_right]
    refine hps.imp ?_
    rintro s p ⟨h1, h2, h3, h4⟩
    unfold Dfa.tableRow
    rw [h4, h1, h2, h3]
    rfl
  have hpl : ∀ p ∈ ps, p.transitions.length = d.alphabet.length ∧ Name p.name ∧ ∀ t ∈ p.transitions, Name t := by
    intro p hp
    obtain ⟨i, hi⟩ := List.mem_iff_getElem?.1 hp
    obtain ⟨s, hs, h1, _, _, h4⟩ := forall₂_at' hps hi
    have hsm := List.mem_of_getElem? hs
    have hN := namesOf_iff.1 h4
    refine ⟨hN.length_eq.symm.trans (h.row_len s hsm), h1 ▸ hnm s hsm, ?_⟩
    intro t ht
    obtain ⟨k, hk⟩ := List.mem_iff_getElem?.1 ht
    obtain ⟨j, _, st, h5, rfl⟩ := forall₂_at' hN hk
    exact hnm st (List.mem_of_getElem? h5)
  obtain ⟨ws, hws, htxt⟩ := toString_rows (h := [[], [], []] ++ d.alphabet)
    (rows := ps.map fun p => [if p.initial then arrow else [], if p.accepting then ['*'] else [], p.name] ++ p.transitions)
    (by simp) (by
      intro r hr
      obtain ⟨p, hp, rfl⟩ := List.mem_map.1 hr
      simp [(hpl p hp).1])
  have hws' : ws.length = d.alphabet.length + 3 := by rw [hws]; simp
  refine ⟨_, ⟨d.alphabet, ps⟩, by unfold Dfa.genTable; rw [hrows]; exact htxt, ?_, ?_⟩
  · refine table_text ?_ ?_ ?_
    · intro hn
      rw [show ps = [] from hn] at hlen
      have := h.init_lt
      simp at hlen; omega
    · exact head_line hne (forall₂_self fun e he => ⟨rfl, hal e he⟩) (by omega)
    · rw [List.map_map, forall₂_map_iff_right]
      refine forall₂_self ?_
      intro p hp
      obtain ⟨h1, h2, h3⟩ := hpl p hp
      refine row_line ?_ (forall₂_self fun t ht => ⟨rfl, h3 t ht⟩) (by omega) ha h2 p.initial p.accepting
      intro hn
      rw [hn] at h1
      exact hne (List.length_eq_zero_iff.1 h1.symm)
  · have hmap : ps.map (·.name) = d.states.map (·.name) := forall₂_map_eq hps fun s p hp => hp.1
    have hleg : ParsedDfa.Legal ⟨d.alphabet, ps⟩ := by
      refine ⟨h.alphabet_nodup, by rw [hmap]; exact h.names_nodup, fun p hp => (hpl p hp).1, ?_, ?_⟩
      · intro p hp t ht
        obtain ⟨i, hi⟩ := List.mem_iff_getElem?.1 hp
        obtain ⟨s, hs, _, _, _, h4⟩ := forall₂_at' hps hi
        obtain ⟨k, hk⟩ := List.mem_iff_getElem?.1 ht
        obtain ⟨j, _, st, h5, h6⟩ := forall₂_at' (names_of_parsed (g := fun p : ParsedDfaState => p.name) (m := ps) hmap (namesOf_iff.1 h4)) hk
        exact ⟨st, List.mem_of_getElem? h5, h6⟩
      · have hi := h.init_lt
        obtain ⟨p, hp, _, hp2, _⟩ := forall₂_at hps (List.getElem?_eq_getElem hi)
        refine ⟨d.initialState, ⟨p, hp, ?_⟩, ?_⟩
        · show p.initial = true
          rw [hp2]; exact (h.init_flag _ _ (List.getElem?_eq_getElem hi)).2 rfl
        · intro j q hq hqi
          obtain ⟨s, hs, _, hs2, _⟩ := forall₂_at' hps hq
          exact (h.init_flag j s hs).1 (hs2 ▸ hqi)
    have hdesc : ParsedDfa.Describes ⟨d.alphabet, ps⟩ d := by
      refine ⟨rfl, hlen.symm, ?_, ?_⟩
      · intro i p s hp hs
        obtain ⟨s', hs', h1, h2, h3, h4⟩ := forall₂_at' hps hp
        rw [hs] at hs'
        cases hs'
        exact ⟨h1.symm, h2.symm, h3.symm, names_of_parsed hmap (namesOf_iff.1 h4)⟩
      · have hi := h.init_lt
        obtain ⟨p, hp, _, hp2, _⟩ := forall₂_at hps (List.getElem?_eq_getElem hi)
        refine ⟨p, hp, ?_⟩
        rw [hp2]; exact (h.init_flag _ _ (List.getElem?_eq_getElem hi)).2 rfl
    obtain ⟨d', hd'⟩ := dfa_total hleg
    rw [hd', hdesc.unique hleg (dfa_ok hd').2]

/-! ## NFA -/

theorem set_cell {ns : List Str} (h : ∀ t ∈ ns, Name t) : SetItem ns ('{' :: List.intercalate [' '] ns ++ ['}']) := by
  have key : ∀ ns : List Str, ns ≠ [] → (∀ t ∈ ns, Name t) → Spaced NameItem ns (List.intercalate [' '] ns) := by
    intro ns
    induction ns with
    | nil => intro h; exact absurd rfl h
    | cons n ns ih =>
      intro _ h
      cases ns with
      | nil => simpa [List.intercalate] using Spaced.one (Item := NameItem) ⟨rfl, h n List.mem_cons_self⟩
      | cons n' ns =>
        rw [intercalate_cons_cons]
        exact .cons ⟨rfl, h n List.mem_cons_self⟩ blanks_space (by simp) (ih (by simp) fun t ht => h t (List.mem_cons_of_mem _ ht))
  refine ⟨[], List.intercalate [' '] ns, [], by simp, blanks_nil, blanks_nil, ?_⟩
  by_cases hn : ns = []
  · subst hn; exact Or.inl ⟨rfl, rfl⟩
  · exact Or.inr (key ns hn h)

theorem nfa_rows {n : Nfa} (h : n.WF) : ∃ ps : List ParsedNfaState,
    List.Forall₂ (fun (s : NfaState) (p : ParsedNfaState) => p.name = s.name ∧ p.initial = s.initial ∧ p.accepting = s.accepting ∧
      (s.epsilonTransitions :: s.transitions).mapM (namesOf (·.name) n.states) = some p.transitions) n.states ps := by
  have : ∀ l : List NfaState, (∀ s ∈ l, s ∈ n.states) → ∃ ps : List ParsedNfaState,
    List.Forall₂ (fun (s : NfaState) (p : ParsedNfaState) => p.name = s.name ∧ p.initial = s.initial ∧ p.accepting = s.accepting ∧
      (s.epsilonTransitions :: s.transitions).mapM (namesOf (·.name) n.states) = some p.transitions) l ps := by
    intro l
    induction l with
    | nil => intro _; exact ⟨[], .nil⟩
    | cons s l ih =>
      intro hl
      obtain ⟨ps, hps⟩ := ih fun x hx => hl x (List.mem_cons_of_mem _ hx)
      have hs := hl s List.mem_cons_self
      obtain ⟨ns, hns⟩ := mapM_total (f := namesOf (fun s : NfaState => s.name) n.states) (l := s.epsilonTransitions :: s.transitions) (by
        intro cs hcs
        refine namesOf_total ?_
        rcases List.mem_cons.1 hcs with rfl | hcs
        · exact h.eps_targets s hs
        · exact h.targets s hs cs hcs)
      exact ⟨⟨s.name, s.initial, s.accepting, ns⟩ :: ps, .cons ⟨rfl, rfl, rfl, hns⟩ hps⟩
  exact this n.states fun _ h => h

theorem nfa_roundtrip {n : Nfa} (h : n.WF) (hal : ∀ e ∈ n.alphabet, Name e) (hnm : ∀ s ∈ n.states, Name s.name)
    {eps arrow : Str} (he : eps = ['ε'] ∨ eps = ['e', 'p', 's']) (ha : arrow ∈ [['-', '>'], ['→']]) :
    ∃ txt p, n.genTable eps arrow = some txt ∧ NfaText p txt ∧ Validate.nfa p = .ok n := by
  obtain ⟨ps, hps⟩ := nfa_rows h
  have hlen : ps.length = n.states.length := hps.length_eq.symm
  have hrows : n.states.mapM (n.tableRow arrow) = some (ps.map fun p =>
      [if p.initial then arrow else [], if p.accepting then ['*'] else [], p.name] ++
        p.transitions.map (fun ns => '{' :: List.intercalate [' '] ns ++ ['}'])) := by
    rw [mapM_iff, forall₂_map_iff_right]
    refine hps.imp ?_
    rintro s p ⟨h1, h2, h3, h4⟩
    unfold Nfa.tableRow
    have : (s.epsilonTransitions :: s.transitions).mapM n.setCell =
        some (p.transitions.map (fun ns => '{' :: List.intercalate [' '] ns ++ ['}'])) := by
      rw [mapM_iff, forall₂_map_iff_right]
      refine (mapM_iff.1 h4).imp ?_
      intro cs ns hcs
      unfold Nfa.setCell
      rw [hcs]
      rfl
    rw [this, h1, h2, h3]
    rfl
  have hpl : ∀ p ∈ ps, p.transitions.length = n.alphabet.length + 1 ∧ Name p.name ∧ ∀ ts ∈ p.transitions, ∀ t ∈ ts, Name t := by
    intro p hp
    obtain ⟨i, hi⟩ := List.mem_iff_getElem?.1 hp
    obtain ⟨s, hs, h1, _, _, h4⟩ := forall₂_at' hps hi
    have hsm := List.mem_of_getElem? hs
    have hN := mapM_iff.1 h4
    refine ⟨hN.length_eq.symm.trans (by simp [h.row_len s hsm]), h1 ▸ hnm s hsm, ?_⟩
    intro ts hts t ht
    obtain ⟨c, hc⟩ := List.mem_iff_getElem?.1 hts
    obtain ⟨js, _, hjs⟩ := forall₂_at' hN hc
    obtain ⟨k, hk⟩ := List.mem_iff_getElem?.1 ht
    obtain ⟨j, _, st, h5, rfl⟩ := forall₂_at' (namesOf_iff.1 hjs) hk
    exact hnm st (List.mem_of_getElem? h5)
  obtain ⟨ws, hws, htxt⟩ := toString_rows (h := [[], [], [], eps] ++ n.alphabet)
    (rows := ps.map fun p => [if p.initial then arrow else [], if p.accepting then ['*'] else [], p.name] ++
      p.transitions.map (fun ns => '{' :: List.intercalate [' '] ns ++ ['}']))
    (by simp) (by
      intro r hr
      obtain ⟨p, hp, rfl⟩ := List.mem_map.1 hr
      simp [(hpl p hp).1])
  have hws' : ws.length = n.alphabet.length + 4 := by rw [hws]; simp
  refine ⟨_, ⟨.eps :: n.alphabet.map .element, ps⟩, by unfold Nfa.genTable; rw [hrows]; exact htxt, ?_, ?_⟩
  · refine table_text ?_ ?_ ?_
    · intro hn
      rw [show ps = [] from hn] at hlen
      have := h.init_lt
      simp at hlen; omega
    · have : [[], [], [], eps] ++ n.alphabet = [[], [], []] ++ (eps :: n.alphabet) := rfl
      rw [this]
      refine head_line (by simp) (.cons he ?_) (by simp; omega)
      rw [List.forall₂_map_left_iff]
      exact forall₂_self fun e he => ⟨rfl, hal e he⟩
    · rw [List.map_map, forall₂_map_iff_right]
      refine forall₂_self ?_
      intro p hp
      obtain ⟨h1, h2, h3⟩ := hpl p hp
      refine row_line ?_ ?_ (by rw [List.length_map]; omega) ha h2 p.initial p.accepting
      · intro hn
        rw [hn] at h1
        simp at h1
      · rw [forall₂_map_iff_right]
        exact forall₂_self fun ts hts => set_cell (h3 ts hts)
  · have hmap : ps.map (·.name) = n.states.map (·.name) := forall₂_map_eq hps fun s p hp => hp.1
    have hel : headElems (.eps :: n.alphabet.map .element) = n.alphabet := by
      have : headElems (n.alphabet.map .element) = n.alphabet := by
        generalize n.alphabet = al
        induction al with
        | nil => rfl
        | cons a al ih => exact congrArg (a :: ·) ih
      exact this
    have hepscol : ∀ k : Nat, (NfaAlphabetEntry.eps :: n.alphabet.map .element)[k]? = some .eps → k = 0 := by
      intro k hk
      match k, hk with
      | 0, _ => rfl
      | k + 1, hk =>
        rw [List.getElem?_cons_succ, List.getElem?_map] at hk
        cases hx : n.alphabet[k]? with
        | none => rw [hx] at hk; cases hk
        | some e => rw [hx] at hk; cases hk
    have hleg : ParsedNfa.Legal ⟨.eps :: n.alphabet.map .element, ps⟩ := by
      refine ⟨by show (headElems _).Nodup; rw [hel]; exact h.alphabet_nodup, ?_, by rw [hmap]; exact h.names_nodup,
        fun p hp => by rw [(hpl p hp).1]; simp, ?_, ?_⟩
      · intro i j hi hj
        rw [hepscol i hi, hepscol j hj]
      · intro p hp ts hts t ht
        obtain ⟨i, hi⟩ := List.mem_iff_getElem?.1 hp
        obtain ⟨s, hs, _, _, _, h4⟩ := forall₂_at' hps hi
        obtain ⟨c, hc⟩ := List.mem_iff_getElem?.1 hts
        obtain ⟨js, _, hjs⟩ := forall₂_at' (mapM_iff.1 h4) hc
        obtain ⟨k, hk⟩ := List.mem_iff_getElem?.1 ht
        obtain ⟨j, _, st, h5, h6⟩ := forall₂_at' (names_of_parsed (g := fun p : ParsedNfaState => p.name) (m := ps) hmap (namesOf_iff.1 hjs)) hk
        exact ⟨st, List.mem_of_getElem? h5, h6⟩
      · have hi := h.init_lt
        obtain ⟨p, hp, _, hp2, _⟩ := forall₂_at hps (List.getElem?_eq_getElem hi)
        refine ⟨n.initialState, ⟨p, hp, ?_⟩, ?_⟩
        · show p.initial = true
          rw [hp2]; exact (h.init_flag _ _ (List.getElem?_eq_getElem hi)).2 rfl
        · intro j q hq hqi
          obtain ⟨s, hs, _, hs2, _⟩ := forall₂_at' hps hq
          exact (h.init_flag j s hs).1 (hs2 ▸ hqi)
    have hdesc : ParsedNfa.Describes ⟨.eps :: n.alphabet.map .element, ps⟩ n := by
      refine ⟨hel.symm, hlen.symm, ?_, ?_, ?_, ?_, ?_⟩
      · intro i p s hp hs
        obtain ⟨s', hs', h1, h2, h3, h4⟩ := forall₂_at' hps hp
        rw [hs] at hs'
        cases hs'
        exact ⟨h1.symm, h2.symm, h3.symm, h.row_len s (List.mem_of_getElem? hs)⟩
      · intro i k a p s e ts hp hs hk hts ha
        obtain ⟨s', hs', _, _, _, h4⟩ := forall₂_at' hps hp
        rw [hs] at hs'
        cases hs'
        match k, hk, hts with
        | 0, hk, _ => cases hk
        | k + 1, hk, hts =>
          have hk' : n.alphabet[k]? = some e := by
            simp only [List.getElem?_cons_succ, List.getElem?_map] at hk
            cases hx : n.alphabet[k]? with
            | none => rw [hx] at hk; cases hk
            | some e' => rw [hx] at hk; cases hk; rfl
          obtain rfl := nodup_getElem? h.alphabet_nodup ha hk'
          obtain ⟨js, hjs, hjs'⟩ := forall₂_at' (mapM_iff.1 h4) hts
          exact ⟨js, by simpa using hjs, names_of_parsed hmap (namesOf_iff.1 hjs')⟩
      · intro i k p s ts hp hs hk hts
        obtain ⟨s', hs', _, _, _, h4⟩ := forall₂_at' hps hp
        rw [hs] at hs'
        cases hs'
        obtain rfl := hepscol k hk
        obtain ⟨js, hjs, hjs'⟩ := forall₂_at' (mapM_iff.1 h4) hts
        cases hjs
        exact names_of_parsed hmap (namesOf_iff.1 hjs')
      · intro hn; exact absurd List.mem_cons_self hn
      · have hi := h.init_lt
        obtain ⟨p, hp, _, hp2, _⟩ := forall₂_at hps (List.getElem?_eq_getElem hi)
        refine ⟨p, hp, ?_⟩
        rw [hp2]; exact (h.init_flag _ _ (List.getElem?_eq_getElem hi)).2 rfl
    obtain ⟨n', hn'⟩ := nfa_total hleg
    rw [hn', hdesc.unique hleg (nfa_ok hn').2]

end Dandy
