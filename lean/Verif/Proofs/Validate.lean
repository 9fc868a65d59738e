import Mathlib.Tactic.Tauto
import Verif.Spec.Validate
/-! # Lemmas about the validation of tables -/

namespace Dandy
open Validate

theorem nodup_getElem? {α : Type} {l : List α} (h : l.Nodup) {i j : Nat} {x : α} (hi : l[i]? = some x) (hj : l[j]? = some x) : i = j := by
  have h1 := (List.getElem?_eq_some_iff.1 hi).1
  exact (List.getElem?_inj h1 h).1 (hi.trans hj.symm)

theorem firstDup_none (l : List Str) : ∀ seen, firstDup seen l = none ↔ l.Nodup ∧ ∀ e ∈ l, e ∉ seen := by
  induction l with
  | nil => intro seen; simp [firstDup]
  | cons e l ih =>
    intro seen
    rw [firstDup]
    split
    · rename_i h
      rw [List.contains_iff_mem] at h
      simp only [reduceCtorEq, false_iff]
      rintro ⟨_, h2⟩
      exact h2 e List.mem_cons_self h
    · rename_i h
      rw [List.contains_iff_mem] at h
      rw [ih, List.nodup_cons]
      simp only [List.mem_cons, not_or]
      constructor
      · rintro ⟨h1, h2⟩
        refine ⟨⟨fun he => (h2 e he).1 rfl, h1⟩, ?_⟩
        rintro x (rfl | hx)
        · exact h
        · exact (h2 x hx).2
      · rintro ⟨⟨h1, h2⟩, h3⟩
        refine ⟨h2, fun x hx => ⟨?_, h3 x (Or.inr hx)⟩⟩
        rintro rfl; exact h1 hx

/-- A duplicate found is in the list and was seen, or is at two places. -/
theorem firstDup_some (l : List Str) : ∀ seen d, firstDup seen l = some d →
    d ∈ l ∧ (d ∈ seen ∨ ∃ i j : Nat, i ≠ j ∧ l[i]? = some d ∧ l[j]? = some d) := by
  induction l with
  | nil => intro seen d h; cases h
  | cons e l ih =>
    intro seen d h
    rw [firstDup] at h
    split at h
    · rename_i hc
      cases h
      exact ⟨List.mem_cons_self, Or.inl (List.contains_iff_mem.1 hc)⟩
    · obtain ⟨h1, h2⟩ := ih _ _ h
      refine ⟨List.mem_cons_of_mem _ h1, ?_⟩
      rcases h2 with h2 | ⟨i, j, hij, hi, hj⟩
      · rcases List.mem_cons.1 h2 with rfl | h2
        · obtain ⟨i, hi⟩ := List.mem_iff_getElem?.1 h1
          exact Or.inr ⟨0, i + 1, by omega, rfl, hi⟩
        · exact Or.inl h2
      · exact Or.inr ⟨i + 1, j + 1, by omega, hi, hj⟩

theorem nameCount_aux (l : List Str) : ∀ acc : List Str,
    (l.foldl (fun acc x => if acc.contains x then acc else x :: acc) acc).length ≤ acc.length + l.length ∧
    ((l.foldl (fun acc x => if acc.contains x then acc else x :: acc) acc).length = acc.length + l.length ↔
      l.Nodup ∧ ∀ e ∈ l, e ∉ acc) := by
  induction l with
  | nil => intro acc; simp
  | cons e l ih =>
    intro acc
    rw [List.foldl_cons]
    split
    · rename_i h
      rw [List.contains_iff_mem] at h
      obtain ⟨h1, _⟩ := ih acc
      refine ⟨by simp only [List.length_cons]; omega, ?_⟩
      constructor
      · intro h2; simp only [List.length_cons] at h2; omega
      · rintro ⟨_, h3⟩; exact absurd h (h3 e List.mem_cons_self)
    · rename_i h
      rw [List.contains_iff_mem] at h
      obtain ⟨h1, h2⟩ := ih (e :: acc)
      simp only [List.length_cons] at h1 h2 ⊢
      refine ⟨by omega, ?_⟩
      rw [show acc.length + (l.length + 1) = acc.length + 1 + l.length by omega, h2, List.nodup_cons]
      simp only [List.mem_cons, not_or]
      constructor
      · rintro ⟨h3, h4⟩
        refine ⟨⟨fun he => (h4 e he).1 rfl, h3⟩, ?_⟩
        rintro x (rfl | hx)
        · exact h
        · exact (h4 x hx).2
      · rintro ⟨⟨h3, h4⟩, h5⟩
        refine ⟨h4, fun x hx => ⟨?_, h5 x (Or.inr hx)⟩⟩
        rintro rfl; exact h3 hx

theorem nameCount_eq (l : List Str) : nameCount l = l.length ↔ l.Nodup := by
  have := (nameCount_aux l []).2
  simp only [List.length_nil, Nat.zero_add, List.not_mem_nil, not_false_eq_true, implies_true, and_true] at this
  exact this

theorem nameGet_aux (x : Str) (l : List Str) : ∀ (k : Nat) (acc : Option Nat),
    ((l.zipIdx k).foldl (fun acc p => if p.1 == x then some p.2 else acc) acc = acc ∧ x ∉ l) ∨
    ∃ i : Nat, (l.zipIdx k).foldl (fun acc p => if p.1 == x then some p.2 else acc) acc = some (k + i) ∧ l[i]? = some x := by
  induction l with
  | nil => intro k acc; left; simp
  | cons e l ih =>
    intro k acc
    rw [List.zipIdx_cons, List.foldl_cons]
    rcases ih (k + 1) (if e == x then some k else acc) with ⟨h1, h2⟩ | ⟨i, h1, h2⟩
    · rw [h1]
      by_cases he : e = x
      · right
        refine ⟨0, ?_, by simp [he]⟩
        simp [he]
      · left
        refine ⟨by simp [he], ?_⟩
        simp only [List.mem_cons, not_or]
        exact ⟨fun h => he h.symm, h2⟩
    · right
      exact ⟨i + 1, by rw [h1]; congr 1; omega, h2⟩

theorem nameGet_none {l : List Str} {x : Str} : nameGet l x = none ↔ x ∉ l := by
  unfold nameGet
  rcases nameGet_aux x l 0 none with ⟨h1, h2⟩ | ⟨i, h1, h2⟩
  · rw [h1]; simp only [h2, not_false_eq_true]
  · rw [h1]
    simp only [reduceCtorEq, false_iff, not_not]
    exact List.mem_of_getElem? h2

theorem nameGet_some {l : List Str} {x : Str} {i : Nat} (h : nameGet l x = some i) : l[i]? = some x := by
  unfold nameGet at h
  rcases nameGet_aux x l 0 none with ⟨h1, h2⟩ | ⟨j, h1, h2⟩
  · rw [h1] at h; cases h
  · rw [h1] at h; cases h; rw [Nat.zero_add]; exact h2

theorem lookupAll_ok {names : List Str} {name : Str} {ts : List Str} {is : List Nat} (h : lookupAll names name ts = .ok is) :
    List.Forall₂ (fun j t => names[j]? = some t) is ts := by
  induction ts generalizing is with
  | nil => cases h; exact .nil
  | cons t ts ih =>
    rw [lookupAll] at h
    cases h1 : nameGet names t with
    | none => rw [h1] at h; cases h
    | some i =>
      rw [h1] at h
      cases h2 : lookupAll names name ts with
      | error e => rw [h2] at h; cases h
      | ok is' =>
        rw [h2] at h
        cases h
        exact .cons (nameGet_some h1) (ih h2)

theorem lookupAll_total {names : List Str} {name : Str} {ts : List Str} (h : ∀ t ∈ ts, t ∈ names) :
    ∃ is, lookupAll names name ts = .ok is := by
  induction ts with
  | nil => exact ⟨[], rfl⟩
  | cons t ts ih =>
    obtain ⟨is, h1⟩ := ih fun x hx => h x (List.mem_cons_of_mem _ hx)
    rw [lookupAll]
    cases h2 : nameGet names t with
    | none => exact absurd (h t List.mem_cons_self) (nameGet_none.1 h2)
    | some i => exact ⟨i :: is, by rw [h1]⟩

theorem lookupAll_error {names : List Str} {name : Str} {ts : List Str} {e : ParseError} (h : lookupAll names name ts = .error e) :
    ∃ t ∈ ts, t ∉ names ∧ e = .transitionDoesNotExist name t := by
  induction ts with
  | nil => cases h
  | cons t ts ih =>
    rw [lookupAll] at h
    cases h1 : nameGet names t with
    | none => rw [h1] at h; cases h; exact ⟨t, List.mem_cons_self, nameGet_none.1 h1, rfl⟩
    | some i =>
      rw [h1] at h
      cases h2 : lookupAll names name ts with
      | error e' =>
        rw [h2] at h
        cases h
        obtain ⟨t', h3, h4⟩ := ih h2
        exact ⟨t', List.mem_cons_of_mem _ h3, h4⟩
      | ok is' => rw [h2] at h; cases h

section loop
variable {σ α : Type} {row : σ → Except ParseError α} {isInit : σ → Bool}

theorem stateLoop_ok : ∀ (ss : List σ) (idx : Nat) (init : Option Nat) (as : List α) (init' : Option Nat),
    stateLoop row isInit ss idx init = .ok (as, init') →
    as.length = ss.length ∧ (∀ (i : Nat) s, ss[i]? = some s → ∃ a, row s = .ok a ∧ as[i]? = some a) ∧
    ((init' = init ∧ ∀ s ∈ ss, isInit s = false) ∨
      (init = none ∧ ∃ i : Nat, init' = some (idx + i) ∧ (∃ s, ss[i]? = some s ∧ isInit s = true) ∧
        ∀ (j : Nat) s, ss[j]? = some s → isInit s = true → j = i))
  | [], idx, init, as, init', h => by
    cases h
    exact ⟨rfl, by intro i s h; simp at h, Or.inl ⟨rfl, by intro s h; cases h⟩⟩
  | s :: ss, idx, init, as, init', h => by
    rw [stateLoop] at h
    cases h1 : row s with
    | error e => rw [h1] at h; cases h
    | ok a =>
      rw [h1] at h
      simp only at h
      split at h
      · cases h
      · rename_i hmul
        cases h2 : stateLoop row isInit ss (idx + 1) (if isInit s then some idx else init) with
        | error e => rw [h2] at h; cases h
        | ok x =>
          obtain ⟨as', i'⟩ := x
          rw [h2] at h
          cases h
          obtain ⟨h3, h4, h5⟩ := stateLoop_ok ss _ _ _ _ h2
          refine ⟨by simp [h3], ?_, ?_⟩
          · intro i s' hs'
            match i, hs' with
            | 0, hs' => cases hs'; exact ⟨a, h1, rfl⟩
            | i + 1, hs' => exact h4 i s' (by simpa using hs')
          · by_cases hi : isInit s = true
            · rw [if_pos hi] at h5
              right
              have hnone : init = none := by
                cases init with
                | none => rfl
                | some v => rw [hi] at hmul; simp at hmul
              refine ⟨hnone, 0, ?_, ⟨s, rfl, hi⟩, ?_⟩
              · rcases h5 with ⟨h6, _⟩ | ⟨h6, _⟩
                · exact h6
                · cases h6
              · rcases h5 with ⟨_, h6⟩ | ⟨h6, _⟩
                · intro j s' hs' hs''
                  match j, hs' with
                  | 0, _ => rfl
                  | j + 1, hs' =>
                    rw [h6 s' (List.mem_of_getElem? (by simpa using hs'))] at hs''
                    cases hs''
                · cases h6
            · have hi' : isInit s = false := by simpa using hi
              rw [hi'] at h5
              simp only [Bool.false_eq_true, if_false] at h5
              rcases h5 with ⟨h6, h7⟩ | ⟨h6, i, h7, h8, h9⟩
              · left
                refine ⟨h6, ?_⟩
                intro s' hs'
                rcases List.mem_cons.1 hs' with rfl | hs'
                · exact hi'
                · exact h7 s' hs'
              · right
                refine ⟨h6, i + 1, by rw [h7]; congr 1; omega, h8, ?_⟩
                intro j s' hs' hs''
                match j, hs' with
                | 0, hs' => cases hs'; rw [hi'] at hs''; cases hs''
                | j + 1, hs' => rw [h9 j s' (by simpa using hs') hs'']

theorem stateLoop_total : ∀ (ss : List σ) (idx : Nat) (init : Option Nat), (∀ s ∈ ss, ∃ a, row s = .ok a) →
    (init = none ∨ ∀ s ∈ ss, isInit s = false) →
    (∀ (i j : Nat) s t, ss[i]? = some s → ss[j]? = some t → isInit s = true → isInit t = true → i = j) →
    ∃ x, stateLoop row isInit ss idx init = .ok x
  | [], _, _, _, _, _ => ⟨_, rfl⟩
  | s :: ss, idx, init, hrow, hinit, hone => by
    obtain ⟨a, ha⟩ := hrow s List.mem_cons_self
    rw [stateLoop, ha]
    have hcond : (isInit s && init.isSome) = false := by
      rcases hinit with rfl | h
      · simp
      · simp [h s List.mem_cons_self]
    simp only [hcond, Bool.false_eq_true, if_false]
    have hnext : (if isInit s = true then some idx else init) = none ∨ ∀ s' ∈ ss, isInit s' = false := by
      by_cases hi : isInit s = true
      · right
        intro s' hs'
        obtain ⟨j, hj⟩ := List.mem_iff_getElem?.1 hs'
        by_contra hc
        have := hone 0 (j + 1) s s' rfl (by simpa using hj) hi (by simpa using hc)
        omega
      · rw [if_neg hi]
        rcases hinit with h | h
        · exact Or.inl h
        · exact Or.inr fun s' hs' => h s' (List.mem_cons_of_mem _ hs')
    obtain ⟨x, hx⟩ := stateLoop_total ss (idx + 1) _ (fun s' hs' => hrow s' (List.mem_cons_of_mem _ hs')) hnext (by
      intro i j s' t' h1 h2 h3 h4
      have := hone (i + 1) (j + 1) s' t' (by simpa using h1) (by simpa using h2) h3 h4
      omega)
    exact ⟨(a :: x.1, x.2), by rw [hx]⟩

theorem stateLoop_error : ∀ (ss : List σ) (idx : Nat) (init : Option Nat) (e : ParseError),
    stateLoop row isInit ss idx init = .error e →
    (∃ s ∈ ss, row s = .error e) ∨ (e = .multipleInitialStates ∧
      ((init ≠ none ∧ ∃ s ∈ ss, isInit s = true) ∨
        ∃ (i j : Nat) (s t : σ), i ≠ j ∧ ss[i]? = some s ∧ ss[j]? = some t ∧ isInit s = true ∧ isInit t = true))
  | [], _, _, _, h => by cases h
  | s :: ss, idx, init, e, h => by
    rw [stateLoop] at h
    cases h1 : row s with
    | error e' => rw [h1] at h; cases h; exact Or.inl ⟨s, List.mem_cons_self, h1⟩
    | ok a =>
      rw [h1] at h
      simp only at h
      split at h
      · rename_i hm
        cases h
        rw [Bool.and_eq_true] at hm
        right
        refine ⟨rfl, Or.inl ⟨?_, s, List.mem_cons_self, hm.1⟩⟩
        intro hn; rw [hn] at hm; simp at hm
      · cases h2 : stateLoop row isInit ss (idx + 1) (if isInit s then some idx else init) with
        | ok x => rw [h2] at h; cases h
        | error e' =>
          rw [h2] at h
          cases h
          rcases stateLoop_error ss _ _ _ h2 with ⟨s', h3, h4⟩ | ⟨rfl, h3⟩
          · exact Or.inl ⟨s', List.mem_cons_of_mem _ h3, h4⟩
          · right
            refine ⟨rfl, ?_⟩
            rcases h3 with ⟨h4, s', h5, h6⟩ | ⟨i, j, s1, t1, hij, h4, h5, h6, h7⟩
            · by_cases hi : isInit s = true
              · obtain ⟨j, hj⟩ := List.mem_iff_getElem?.1 h5
                exact Or.inr ⟨0, j + 1, s, s', by omega, rfl, by simpa using hj, hi, h6⟩
              · rw [if_neg hi] at h4
                exact Or.inl ⟨h4, s', List.mem_cons_of_mem _ h5, h6⟩
            · exact Or.inr ⟨i + 1, j + 1, s1, t1, by omega, by simpa using h4, by simpa using h5, h6, h7⟩

end loop

theorem dup_names {σ : Type} {f : σ → Str} {l : List σ} (h : ¬ (l.map f).Nodup) :
    ∃ d, firstDup [] (l.map f) = some d ∧ ∃ (i j : Nat) (s t : σ), i ≠ j ∧ l[i]? = some s ∧ l[j]? = some t ∧ f s = d ∧ f t = d := by
  cases hd : firstDup [] (l.map f) with
  | none => exact absurd ((firstDup_none _ []).1 hd).1 h
  | some d =>
    refine ⟨d, rfl, ?_⟩
    rcases (firstDup_some _ _ _ hd).2 with h2 | ⟨i, j, hij, hi, hj⟩
    · cases h2
    · rw [List.getElem?_map] at hi hj
      cases h1 : l[i]? with
      | none => rw [h1] at hi; cases hi
      | some s =>
        cases h2 : l[j]? with
        | none => rw [h2] at hj; cases hj
        | some t =>
          rw [h1] at hi; rw [h2] at hj
          exact ⟨i, j, s, t, hij, h1, h2, by simpa using hi, by simpa using hj⟩

theorem named_iff {σ : Type} {f : σ → Str} {l : List σ} {j : Nat} {t : Str} :
    (l.map f)[j]? = some t ↔ ∃ st, l[j]? = some st ∧ f st = t := by
  rw [List.getElem?_map]
  cases l[j]? <;> simp

/-! ## DFA -/

theorem dfaRow_ok {p : ParsedDfa} {s : ParsedDfaState} {a : DfaState} (h : dfaRow p s = .ok a) :
    s.transitions.length = p.head.length ∧ a.name = s.name ∧ a.initial = s.initial ∧ a.accepting = s.accepting ∧
      List.Forall₂ (fun j t => ∃ st, p.states[j]? = some st ∧ st.name = t) a.transitions s.transitions := by
  unfold dfaRow at h
  split at h
  · cases h
  · rename_i hl
    cases h1 : lookupAll (p.states.map (·.name)) s.name s.transitions with
    | error e => rw [h1] at h; cases h
    | ok tr =>
      rw [h1] at h
      cases h
      refine ⟨by simpa using hl, rfl, rfl, rfl, ?_⟩
      exact (lookupAll_ok h1).imp fun j t h => named_iff.1 h

theorem dfaRow_total {p : ParsedDfa} {s : ParsedDfaState} (hl : s.transitions.length = p.head.length)
    (ht : ∀ t ∈ s.transitions, ∃ s' ∈ p.states, s'.name = t) : ∃ a, dfaRow p s = .ok a := by
  obtain ⟨is, h⟩ := lookupAll_total (names := p.states.map (·.name)) (name := s.name) (ts := s.transitions) (by
    intro t h
    obtain ⟨s', h1, h2⟩ := ht t h
    exact List.mem_map.2 ⟨s', h1, h2⟩)
  unfold dfaRow
  rw [if_neg (by simp [hl]), h]
  exact ⟨_, rfl⟩

theorem dfaRow_error {p : ParsedDfa} {s : ParsedDfaState} {e : ParseError} (hs : s ∈ p.states) (h : dfaRow p s = .error e) :
    p.HasDefect e := by
  unfold dfaRow at h
  split at h
  · rename_i hl
    cases h
    exact ⟨by simpa using hl, rfl, s, hs, rfl, rfl⟩
  · cases h1 : lookupAll (p.states.map (·.name)) s.name s.transitions with
    | ok tr => rw [h1] at h; cases h
    | error e' =>
      rw [h1] at h
      cases h
      obtain ⟨t, h2, h3, rfl⟩ := lookupAll_error h1
      refine ⟨⟨s, hs, rfl, h2⟩, ?_⟩
      intro s' hs' hn
      exact h3 (List.mem_map.2 ⟨s', hs', hn⟩)

theorem dfa_ok {p : ParsedDfa} {d : Dfa} (h : Validate.dfa p = .ok d) : p.Legal ∧ p.Describes d := by
  unfold Validate.dfa at h
  split at h
  · cases h
  · rename_i hd
    split at h
    · cases h
    · rename_i hn
      cases h1 : stateLoop (dfaRow p) (·.initial) p.states 0 none with
      | error e => rw [h1] at h; cases h
      | ok x =>
        obtain ⟨states, init⟩ := x
        rw [h1] at h
        cases init with
        | none => cases h
        | some i =>
          cases h
          obtain ⟨h2, h3, h4⟩ := stateLoop_ok _ _ _ _ _ h1
          have hrow : ∀ s ∈ p.states, ∃ a, dfaRow p s = .ok a := by
            intro s hs
            obtain ⟨k, hk⟩ := List.mem_iff_getElem?.1 hs
            obtain ⟨a, ha, _⟩ := h3 k s hk
            exact ⟨a, ha⟩
          rcases h4 with ⟨h4, _⟩ | ⟨_, k, h5, h6, h7⟩
          · cases h4
          rw [Nat.zero_add] at h5
          cases h5
          refine ⟨⟨((firstDup_none _ _).1 hd).1, ?_, ?_, ?_, i, h6, h7⟩, ⟨rfl, h2, ?_, h6⟩⟩
          · rw [← nameCount_eq]; simpa using hn
          · intro s hs
            obtain ⟨a, ha⟩ := hrow s hs
            exact (dfaRow_ok ha).1
          · intro s hs t ht
            obtain ⟨a, ha⟩ := hrow s hs
            have hf := (dfaRow_ok ha).2.2.2.2
            obtain ⟨k, hk⟩ := List.mem_iff_getElem?.1 ht
            have hlen := hf.length_eq
            have hk' := (List.getElem?_eq_some_iff.1 hk).1
            obtain ⟨st, h8, h9⟩ := (List.forall₂_iff_get.1 hf).2 k (by omega) hk'
            refine ⟨st, List.mem_of_getElem? h8, ?_⟩
            rw [h9]
            simpa using (List.getElem?_eq_some_iff.1 hk).2
          · intro k s s' hs hs'
            obtain ⟨a, ha, ha'⟩ := h3 k s hs
            rw [show states[k]? = some s' from hs'] at ha'
            cases ha'
            exact (dfaRow_ok ha).2

theorem dfa_total {p : ParsedDfa} (h : p.Legal) : ∃ d, Validate.dfa p = .ok d := by
  obtain ⟨i, ⟨s0, hs0, hi0⟩, huniq⟩ := h.initial
  obtain ⟨⟨as, init⟩, hx⟩ := stateLoop_total (row := dfaRow p) (isInit := (·.initial)) p.states 0 none
    (fun s hs => dfaRow_total (h.width s hs) (h.targets s hs)) (Or.inl rfl)
    (fun j k s t h1 h2 h3 h4 => (huniq j s h1 h3).trans (huniq k t h2 h4).symm)
  unfold Validate.dfa
  rw [(firstDup_none _ _).2 ⟨h.head, by simp⟩]
  simp only
  rw [if_neg, hx]
  · cases init with
    | some i => exact ⟨_, rfl⟩
    | none =>
      rcases (stateLoop_ok _ _ _ _ _ hx).2.2 with ⟨_, h1⟩ | ⟨_, k, h1, _⟩
      · exact absurd hi0 (by simp [h1 s0 (List.mem_of_getElem? hs0)])
      · cases h1
  · have := (nameCount_eq (p.states.map (·.name))).2 h.names
    rw [List.length_map] at this
    simp [this]

theorem dfa_error {p : ParsedDfa} {e : ParseError} (h : Validate.dfa p = .error e) : p.HasDefect e := by
  unfold Validate.dfa at h
  split at h
  · rename_i d hd
    cases h
    rcases (firstDup_some _ _ _ hd).2 with h1 | h1
    · cases h1
    · exact h1
  · split at h
    · rename_i hn
      cases h
      obtain ⟨d, h1, h2⟩ := dup_names (f := (·.name)) (l := p.states) (by
        rw [← nameCount_eq]; simpa using hn)
      rw [h1]
      exact h2
    · cases h1 : stateLoop (dfaRow p) (·.initial) p.states 0 none with
      | ok x =>
        obtain ⟨states, init⟩ := x
        rw [h1] at h
        cases init with
        | some i => cases h
        | none =>
          cases h
          rcases (stateLoop_ok _ _ _ _ _ h1).2.2 with ⟨_, h2⟩ | ⟨_, k, h2, _⟩
          · exact h2
          · cases h2
      | error e' =>
        rw [h1] at h
        cases h
        rcases stateLoop_error _ _ _ _ h1 with ⟨s, h2, h3⟩ | ⟨rfl, h2⟩
        · exact dfaRow_error h2 h3
        · rcases h2 with ⟨h2, _⟩ | h2
          · exact absurd rfl h2
          · exact h2

theorem forall₂_lt {σ : Type} {f : σ → Str} {l : List σ} {js : List Nat} {ts : List Str}
    (h : List.Forall₂ (fun j t => ∃ st, l[j]? = some st ∧ f st = t) js ts) : ∀ j ∈ js, j < l.length := by
  induction h with
  | nil => intro j hj; cases hj
  | cons h1 _ ih =>
    intro j hj
    rcases List.mem_cons.1 hj with rfl | hj
    · obtain ⟨st, h2, _⟩ := h1
      exact (List.getElem?_eq_some_iff.1 h2).1
    · exact ih j hj

theorem map_eq_of_rows {σ τ : Type} {f : σ → Str} {g : τ → Str} {l : List σ} {m : List τ} (hl : m.length = l.length)
    (h : ∀ (i : Nat) s s', l[i]? = some s → m[i]? = some s' → g s' = f s) : m.map g = l.map f := by
  apply List.ext_getElem?
  intro i
  rw [List.getElem?_map, List.getElem?_map]
  by_cases hi : i < l.length
  · rw [List.getElem?_eq_getElem hi, List.getElem?_eq_getElem (hl ▸ hi)]
    simp only [Option.map_some, Option.some.injEq]
    exact h i _ _ (List.getElem?_eq_getElem hi) (List.getElem?_eq_getElem (hl ▸ hi))
  · rw [List.getElem?_eq_none (by omega), List.getElem?_eq_none (by omega)]; rfl

theorem ParsedDfa.Describes.wf {p : ParsedDfa} {d : Dfa} (hp : p.Legal) (h : p.Describes d) : d.WF := by
  have hget : ∀ (i : Nat) s', d.states[i]? = some s' → ∃ s, p.states[i]? = some s := by
    intro i s' hs'
    have := (List.getElem?_eq_some_iff.1 hs').1
    rw [h.count] at this
    exact ⟨_, List.getElem?_eq_getElem this⟩
  refine ⟨h.alphabet ▸ hp.head, ?_, ?_, ?_, ?_, ?_⟩
  · rw [map_eq_of_rows h.count (fun i s s' h1 h2 => (h.rows i s s' h1 h2).1)]
    exact hp.names
  · intro s' hs'
    obtain ⟨i, hi⟩ := List.mem_iff_getElem?.1 hs'
    obtain ⟨s, hs⟩ := hget i s' hi
    rw [(h.rows i s s' hs hi).2.2.2.length_eq, h.alphabet]
    exact hp.width s (List.mem_of_getElem? hs)
  · intro s' hs' t ht
    obtain ⟨i, hi⟩ := List.mem_iff_getElem?.1 hs'
    obtain ⟨s, hs⟩ := hget i s' hi
    rw [h.count]
    exact forall₂_lt (f := (·.name)) (h.rows i s s' hs hi).2.2.2 t ht
  · obtain ⟨s, hs, _⟩ := h.initial
    rw [h.count]
    exact (List.getElem?_eq_some_iff.1 hs).1
  · intro i s' hs'
    obtain ⟨s, hs⟩ := hget i s' hs'
    rw [(h.rows i s s' hs hs').2.1]
    obtain ⟨s0, h0, h0'⟩ := h.initial
    obtain ⟨k, _, hk⟩ := hp.initial
    constructor
    · intro hi
      exact (hk i s hs hi).trans (hk _ s0 h0 h0').symm
    · rintro rfl
      rw [h0] at hs; cases hs; exact h0'

theorem named_unique {σ : Type} {f : σ → Str} {l : List σ} (hn : (l.map f).Nodup) {js ks : List Nat} {ts : List Str}
    (h : List.Forall₂ (fun j t => ∃ st, l[j]? = some st ∧ f st = t) js ts)
    (h' : List.Forall₂ (fun j t => ∃ st, l[j]? = some st ∧ f st = t) ks ts) : js = ks := by
  induction h generalizing ks with
  | nil => cases h'; rfl
  | cons h1 _ ih =>
    cases h' with
    | cons h2 h3 =>
      rw [ih h3]
      congr 1
      exact nodup_getElem? hn (named_iff.2 h1) (named_iff.2 h2)

theorem ParsedDfa.Describes.unique {p : ParsedDfa} {d d' : Dfa} (hp : p.Legal) (h : p.Describes d) (h' : p.Describes d') : d = d' := by
  obtain ⟨al, st, i0⟩ := d
  obtain ⟨al', st', i0'⟩ := d'
  have h1 : al = al' := h.alphabet.trans h'.alphabet.symm
  have h2 : i0 = i0' := by
    obtain ⟨s0, h0, h0'⟩ := h.initial
    obtain ⟨s1, h1, h1'⟩ := h'.initial
    obtain ⟨k, _, hk⟩ := hp.initial
    exact (hk _ s0 h0 h0').trans (hk _ s1 h1 h1').symm
  have h3 : st = st' := by
    apply List.ext_getElem?
    intro i
    have c1 := h.count
    have c2 := h'.count
    simp only at c1 c2
    by_cases hi : i < p.states.length
    · have e1 : st[i]? = some st[i] := List.getElem?_eq_getElem (by omega)
      have e2 : st'[i]? = some st'[i] := List.getElem?_eq_getElem (by omega)
      have e3 := List.getElem?_eq_getElem hi
      obtain ⟨a1, a2, a3, a4⟩ := h.rows i _ _ e3 e1
      obtain ⟨b1, b2, b3, b4⟩ := h'.rows i _ _ e3 e2
      rw [e1, e2]
      have := named_unique hp.names a4 b4
      generalize st[i] = x at *
      generalize st'[i] = y at *
      obtain ⟨n1, i1, ac1, t1⟩ := x
      obtain ⟨n2, i2, ac2, t2⟩ := y
      simp only at a1 a2 a3 b1 b2 b3 this
      simp [a1, a2, a3, b1, b2, b3, this]
    · rw [List.getElem?_eq_none (by omega), List.getElem?_eq_none (by omega)]
  rw [h1, h2, h3]

/-! ## NFA -/

/-- The elements of a header, and the entries of a row in the columns of elements. -/
def headElems (hs : List NfaAlphabetEntry) : List Str :=
  hs.flatMap (fun e => match e with | .element s => [s] | .eps => [])

def elemCols : List NfaAlphabetEntry → List (List Str) → List (List Str)
  | .element _ :: hs, t :: ts => t :: elemCols hs ts
  | .eps :: hs, _ :: ts => elemCols hs ts
  | _, _ => []

theorem headElems_filterMap (hs : List NfaAlphabetEntry) :
    hs.filterMap entryElement = headElems hs := by
  induction hs with
  | nil => rfl
  | cons e hs ih =>
    cases e with
    | eps => exact ih
    | element c => exact congrArg (c :: ·) ih

theorem nfaHead_ok : ∀ (hs : List NfaAlphabetEntry) (idx : Nat) (seen : List Str) (eps r : Option Nat),
    nfaHead hs idx seen eps = .ok r →
    (headElems hs).Nodup ∧ (∀ e ∈ headElems hs, e ∉ seen) ∧
    ((r = eps ∧ .eps ∉ hs) ∨ (eps = none ∧ ∃ k : Nat, r = some (idx + k) ∧ hs[k]? = some .eps ∧
      ∀ j : Nat, hs[j]? = some .eps → j = k))
  | [], _, _, _, _, h => by cases h; exact ⟨List.nodup_nil, by simp [headElems], Or.inl ⟨rfl, by simp⟩⟩
  | .element c :: hs, idx, seen, eps, r, h => by
    rw [nfaHead] at h
    split at h
    · cases h
    · rename_i hc
      rw [List.contains_iff_mem] at hc
      obtain ⟨h1, h2, h3⟩ := nfaHead_ok hs _ _ _ _ h
      have he : headElems (.element c :: hs) = c :: headElems hs := rfl
      rw [he]
      refine ⟨List.nodup_cons.2 ⟨fun hm => h2 c hm List.mem_cons_self, h1⟩, ?_, ?_⟩
      · intro e hm
        rcases List.mem_cons.1 hm with rfl | hm
        · exact hc
        · exact fun hs => h2 e hm (List.mem_cons_of_mem _ hs)
      · rcases h3 with ⟨h3, h4⟩ | ⟨h3, k, h4, h5, h6⟩
        · exact Or.inl ⟨h3, by simp [h4]⟩
        · refine Or.inr ⟨h3, k + 1, by rw [h4]; congr 1; omega, h5, ?_⟩
          intro j hj
          match j, hj with
          | 0, hj => cases hj
          | j + 1, hj => rw [h6 j (by simpa using hj)]
  | .eps :: hs, idx, seen, eps, r, h => by
    rw [nfaHead] at h
    split at h
    · cases h
    · rename_i hc
      obtain ⟨h1, h2, h3⟩ := nfaHead_ok hs _ _ _ _ h
      refine ⟨h1, h2, ?_⟩
      rcases h3 with ⟨h3, h4⟩ | ⟨h3, _⟩
      · refine Or.inr ⟨by simpa using hc, 0, h3, rfl, ?_⟩
        intro j hj
        match j, hj with
        | 0, _ => rfl
        | j + 1, hj => exact absurd (List.mem_of_getElem? (by simpa using hj)) h4
      · cases h3

theorem nfaHead_total : ∀ (hs : List NfaAlphabetEntry) (idx : Nat) (seen : List Str) (eps : Option Nat),
    (headElems hs).Nodup → (∀ e ∈ headElems hs, e ∉ seen) → (eps = none ∨ .eps ∉ hs) →
    (∀ i j : Nat, hs[i]? = some .eps → hs[j]? = some .eps → i = j) → ∃ r, nfaHead hs idx seen eps = .ok r
  | [], _, _, _, _, _, _, _ => ⟨_, rfl⟩
  | .element c :: hs, idx, seen, eps, h1, h2, h3, h4 => by
    have he : headElems (.element c :: hs) = c :: headElems hs := rfl
    rw [he] at h1 h2
    rw [nfaHead, if_neg (by rw [List.contains_iff_mem]; exact h2 c List.mem_cons_self)]
    rw [List.nodup_cons] at h1
    refine nfaHead_total hs _ _ _ h1.2 ?_ ?_ ?_
    · intro e hm
      rw [List.mem_cons, not_or]
      exact ⟨fun h => h1.1 (h ▸ hm), h2 e (List.mem_cons_of_mem _ hm)⟩
    · rcases h3 with h3 | h3
      · exact Or.inl h3
      · exact Or.inr fun h => h3 (List.mem_cons_of_mem _ h)
    · intro i j hi hj
      have := h4 (i + 1) (j + 1) (by simpa using hi) (by simpa using hj)
      omega
  | .eps :: hs, idx, seen, eps, h1, h2, h3, h4 => by
    rw [nfaHead, if_neg (by rcases h3 with rfl | h3 <;> simp_all)]
    refine nfaHead_total hs _ _ _ h1 h2 (Or.inr ?_) ?_
    · intro hm
      obtain ⟨j, hj⟩ := List.mem_iff_getElem?.1 hm
      have := h4 0 (j + 1) rfl (by simpa using hj)
      omega
    · intro i j hi hj
      have := h4 (i + 1) (j + 1) (by simpa using hi) (by simpa using hj)
      omega

theorem mem_headElems {hs : List NfaAlphabetEntry} {e : Str} : e ∈ headElems hs ↔ NfaAlphabetEntry.element e ∈ hs := by
  unfold headElems
  rw [List.mem_flatMap]
  constructor
  · rintro ⟨x, h1, h2⟩
    cases x with
    | eps => cases h2
    | element s => rw [List.mem_singleton.1 h2]; exact h1
  · intro h; exact ⟨_, h, List.mem_singleton.2 rfl⟩

theorem nfaHead_error : ∀ (hs : List NfaAlphabetEntry) (idx : Nat) (seen : List Str) (eps : Option Nat) (e : ParseError),
    nfaHead hs idx seen eps = .error e → ∃ d, e = .duplicateAlphabetSymbol d ∧
      ((d ∈ seen ∧ .element d ∈ hs) ∨ (d = ['ε'] ∧ eps ≠ none ∧ .eps ∈ hs) ∨
      ∃ i j : Nat, i ≠ j ∧ ((hs[i]? = some (.element d) ∧ hs[j]? = some (.element d)) ∨
        (d = ['ε'] ∧ hs[i]? = some .eps ∧ hs[j]? = some .eps)))
  | [], _, _, _, _, h => by cases h
  | .element c :: hs, idx, seen, eps, e, h => by
    rw [nfaHead] at h
    split at h
    · rename_i hc
      cases h
      exact ⟨c, rfl, Or.inl ⟨List.contains_iff_mem.1 hc, List.mem_cons_self⟩⟩
    · obtain ⟨d, rfl, h1⟩ := nfaHead_error hs _ _ _ _ h
      refine ⟨d, rfl, ?_⟩
      rcases h1 with ⟨h1, h2⟩ | ⟨h1, h2, h3⟩ | ⟨i, j, hij, h1⟩
      · rcases List.mem_cons.1 h1 with rfl | h1
        · obtain ⟨j, hj⟩ := List.mem_iff_getElem?.1 h2
          exact Or.inr (Or.inr ⟨0, j + 1, by omega, Or.inl ⟨rfl, by simpa using hj⟩⟩)
        · exact Or.inl ⟨h1, List.mem_cons_of_mem _ h2⟩
      · exact Or.inr (Or.inl ⟨h1, h2, List.mem_cons_of_mem _ h3⟩)
      · exact Or.inr (Or.inr ⟨i + 1, j + 1, by omega, by simpa using h1⟩)
  | .eps :: hs, idx, seen, eps, e, h => by
    rw [nfaHead] at h
    split at h
    · rename_i hc
      cases h
      exact ⟨_, rfl, Or.inr (Or.inl ⟨rfl, (by intro hn; rw [hn] at hc; cases hc), List.mem_cons_self⟩)⟩
    · obtain ⟨d, rfl, h1⟩ := nfaHead_error hs _ _ _ _ h
      refine ⟨d, rfl, ?_⟩
      rcases h1 with ⟨h1, h2⟩ | ⟨h1, h2, h3⟩ | ⟨i, j, hij, h1⟩
      · exact Or.inl ⟨h1, List.mem_cons_of_mem _ h2⟩
      · obtain ⟨j, hj⟩ := List.mem_iff_getElem?.1 h3
        exact Or.inr (Or.inr ⟨0, j + 1, by omega, Or.inr ⟨h1, rfl, by simpa using hj⟩⟩)
      · exact Or.inr (Or.inr ⟨i + 1, j + 1, by omega, by simpa using h1⟩)

/-- The columns of a row that belong to elements, one for each element of the header. -/
theorem elemCols_length : ∀ (hs : List NfaAlphabetEntry) (ts : List (List Str)), ts.length = hs.length →
    (elemCols hs ts).length = (headElems hs).length
  | [], [], _ => rfl
  | .element c :: hs, t :: ts, h => by
    have he : headElems (.element c :: hs) = c :: headElems hs := rfl
    rw [he, elemCols, List.length_cons, List.length_cons, elemCols_length hs ts (by simpa using h)]
  | .eps :: hs, t :: ts, h => by
    have he : headElems (.eps :: hs) = headElems hs := rfl
    rw [he, elemCols, elemCols_length hs ts (by simpa using h)]
  | [], _ :: _, h => by simp at h
  | _ :: _, [], h => by simp at h

theorem elemCols_at : ∀ (hs : List NfaAlphabetEntry) (ts : List (List Str)), ts.length = hs.length →
    ∀ (k : Nat) e t, hs[k]? = some (.element e) → ts[k]? = some t →
    ∃ a : Nat, (headElems hs)[a]? = some e ∧ (elemCols hs ts)[a]? = some t
  | [], _, _, k, e, t, h, _ => by simp at h
  | .element c :: hs, t' :: ts, hl, k, e, t, h, h' => by
    have he : headElems (.element c :: hs) = c :: headElems hs := rfl
    rw [he, elemCols]
    match k, h, h' with
    | 0, h, h' => cases h; cases h'; exact ⟨0, rfl, rfl⟩
    | k + 1, h, h' =>
      obtain ⟨a, h1, h2⟩ := elemCols_at hs ts (by simpa using hl) k e t (by simpa using h) (by simpa using h')
      exact ⟨a + 1, by simpa using h1, by simpa using h2⟩
  | .eps :: hs, t' :: ts, hl, k, e, t, h, h' => by
    have he : headElems (.eps :: hs) = headElems hs := rfl
    rw [he, elemCols]
    match k, h, h' with
    | 0, h, h' => cases h
    | k + 1, h, h' =>
      exact elemCols_at hs ts (by simpa using hl) k e t (by simpa using h) (by simpa using h')
  | _ :: _, [], hl, _, _, _, _, _ => by simp at hl

theorem nfaEntries_ok {names : List Str} {name : Str} {epsIdx : Option Nat} :
    ∀ (hs : List NfaAlphabetEntry) (ts : List (List Str)) (idx : Nat) (eps r : Option (List Nat)) (rest : List (List Nat)),
    ts.length = hs.length → (∀ j : Nat, j < hs.length → (hs[j]? = some .eps ↔ epsIdx = some (idx + j))) →
    nfaEntries names name epsIdx ts idx eps = .ok (r, rest) →
    List.Forall₂ (fun js t => List.Forall₂ (fun j x => names[j]? = some x) js t) rest (elemCols hs ts) ∧
    ((r = eps ∧ .eps ∉ hs) ∨ ∃ (k : Nat) (is : List Nat) (t : List Str), r = some is ∧ hs[k]? = some .eps ∧ ts[k]? = some t ∧
      List.Forall₂ (fun j x => names[j]? = some x) is t)
  | [], [], _, _, _, _, _, _, h => by cases h; exact ⟨.nil, Or.inl ⟨rfl, by simp⟩⟩
  | e :: hs, t :: ts, idx, eps, r, rest, hl, hidx, h => by
    rw [nfaEntries] at h
    have hl' : ts.length = hs.length := by simpa using hl
    have hidx' : ∀ j : Nat, j < hs.length → (hs[j]? = some .eps ↔ epsIdx = some (idx + 1 + j)) := by
      intro j hj
      have := hidx (j + 1) (by simpa using hj)
      rw [show idx + 1 + j = idx + (j + 1) by omega, ← this]
      simp
    have h0 := hidx 0 (by simp)
    cases h1 : lookupAll names name t with
    | error e => rw [h1] at h; cases h
    | ok is =>
      rw [h1] at h
      simp only at h
      split at h
      · rename_i hc
        have hc' : epsIdx = some idx := (by simpa using hc : some idx = epsIdx).symm
        have he : e = .eps := by simpa using h0.2 hc'
        subst he
        obtain ⟨h2, h3⟩ := nfaEntries_ok hs ts _ _ _ _ hl' hidx' h
        refine ⟨h2, Or.inr ?_⟩
        rcases h3 with ⟨h3, _⟩ | ⟨k, is', t', h3, h4, h5, h6⟩
        · exact ⟨0, is, t, h3, rfl, rfl, lookupAll_ok h1⟩
        · exact ⟨k + 1, is', t', h3, by simpa using h4, by simpa using h5, h6⟩
      · rename_i hc
        cases e with
        | eps => exact absurd (h0.1 rfl) (by intro hc'; rw [hc'] at hc; simp at hc)
        | element c =>
          cases h2 : nfaEntries names name epsIdx ts (idx + 1) eps with
          | error e => rw [h2] at h; cases h
          | ok x =>
            obtain ⟨r', rest'⟩ := x
            rw [h2] at h
            cases h
            obtain ⟨h3, h4⟩ := nfaEntries_ok hs ts _ _ _ _ hl' hidx' h2
            refine ⟨.cons (lookupAll_ok h1) h3, ?_⟩
            rcases h4 with ⟨h4, h5⟩ | ⟨k, is', t', h4, h5, h6, h7⟩
            · exact Or.inl ⟨h4, by simp [h5]⟩
            · exact Or.inr ⟨k + 1, is', t', h4, by simpa using h5, by simpa using h6, h7⟩
  | [], _ :: _, _, _, _, _, hl, _, _ => by simp at hl
  | _ :: _, [], _, _, _, _, hl, _, _ => by simp at hl

theorem nfaEntries_total {names : List Str} {name : Str} {epsIdx : Option Nat} :
    ∀ (ts : List (List Str)) (idx : Nat) (eps : Option (List Nat)), (∀ t ∈ ts, ∀ x ∈ t, x ∈ names) →
    ∃ x, nfaEntries names name epsIdx ts idx eps = .ok x
  | [], _, _, _ => ⟨_, rfl⟩
  | t :: ts, idx, eps, h => by
    obtain ⟨is, h1⟩ := lookupAll_total (name := name) (h t List.mem_cons_self)
    rw [nfaEntries, h1]
    simp only
    split
    · exact nfaEntries_total ts _ _ fun t' h' => h t' (List.mem_cons_of_mem _ h')
    · obtain ⟨x, hx⟩ := nfaEntries_total (name := name) (epsIdx := epsIdx) ts (idx + 1) eps fun t' h' => h t' (List.mem_cons_of_mem _ h')
      exact ⟨(x.1, is :: x.2), by rw [hx]⟩

theorem nfaEntries_ok_targets {names : List Str} {name : Str} {epsIdx : Option Nat} :
    ∀ (ts : List (List Str)) (idx : Nat) (eps : Option (List Nat)) x, nfaEntries names name epsIdx ts idx eps = .ok x →
    ∀ t ∈ ts, ∀ y ∈ t, y ∈ names
  | [], _, _, _, _ => by intro t ht; cases ht
  | t :: ts, idx, eps, x, h => by
    rw [nfaEntries] at h
    cases h1 : lookupAll names name t with
    | error e => rw [h1] at h; cases h
    | ok is =>
      rw [h1] at h
      simp only at h
      have ht : ∀ y ∈ t, y ∈ names := by
        have hf := lookupAll_ok h1
        clear h1 h
        induction hf with
        | nil => intro y hy; cases hy
        | cons h2 _ ih =>
          intro y hy
          rcases List.mem_cons.1 hy with rfl | hy
          · exact List.mem_of_getElem? h2
          · exact ih y hy
      have hts : ∀ t ∈ ts, ∀ y ∈ t, y ∈ names := by
        split at h
        · exact nfaEntries_ok_targets ts _ _ _ h
        · cases h2 : nfaEntries names name epsIdx ts (idx + 1) eps with
          | error e => rw [h2] at h; cases h
          | ok x => exact nfaEntries_ok_targets ts _ _ _ h2
      intro t' ht'
      rcases List.mem_cons.1 ht' with rfl | ht'
      · exact ht
      · exact hts t' ht'

theorem nfaEntries_error {names : List Str} {name : Str} {epsIdx : Option Nat} :
    ∀ (ts : List (List Str)) (idx : Nat) (eps : Option (List Nat)) (e : ParseError),
    nfaEntries names name epsIdx ts idx eps = .error e → ∃ t ∈ ts, ∃ x ∈ t, x ∉ names ∧ e = .transitionDoesNotExist name x
  | [], _, _, _, h => by cases h
  | t :: ts, idx, eps, e, h => by
    rw [nfaEntries] at h
    cases h1 : lookupAll names name t with
    | error e' =>
      rw [h1] at h
      cases h
      exact ⟨t, List.mem_cons_self, lookupAll_error h1⟩
    | ok is =>
      rw [h1] at h
      simp only at h
      have hts : ∃ t ∈ ts, ∃ x ∈ t, x ∉ names ∧ e = .transitionDoesNotExist name x := by
        split at h
        · exact nfaEntries_error ts _ _ _ h
        · cases h2 : nfaEntries names name epsIdx ts (idx + 1) eps with
          | error e' => rw [h2] at h; cases h; exact nfaEntries_error ts _ _ _ h2
          | ok x => rw [h2] at h; cases h
      obtain ⟨t', h2, h3⟩ := hts
      exact ⟨t', List.mem_cons_of_mem _ h2, h3⟩

/-- What is known of `eps_idx`. -/
def EpsAt (p : ParsedNfa) (epsIdx : Option Nat) : Prop :=
  ∀ j : Nat, p.head[j]? = some .eps ↔ epsIdx = some j

theorem epsAt_of_head {p : ParsedNfa} {r : Option Nat} (h : nfaHead p.head 0 [] none = .ok r) : EpsAt p r := by
  intro j
  rcases (nfaHead_ok _ _ _ _ _ h).2.2 with ⟨rfl, h1⟩ | ⟨_, k, rfl, h1, h2⟩
  · simp only [reduceCtorEq, iff_false]
    exact fun h => h1 (List.mem_of_getElem? h)
  · rw [Nat.zero_add]
    constructor
    · intro h3; rw [h2 j h3]
    · intro h3; cases h3; exact h1

theorem nfaRow_ok {p : ParsedNfa} {epsIdx : Option Nat} (hE : EpsAt p epsIdx) {s : ParsedNfaState} {a : NfaState}
    (h : nfaRow p epsIdx s = .ok a) :
    s.transitions.length = p.head.length ∧ (∀ ts ∈ s.transitions, ∀ t ∈ ts, ∃ s' ∈ p.states, s'.name = t) ∧
      a.name = s.name ∧ a.initial = s.initial ∧ a.accepting = s.accepting ∧
      List.Forall₂ p.NamedBy a.transitions (elemCols p.head s.transitions) ∧
      ((a.epsilonTransitions = [] ∧ .eps ∉ p.head) ∨
        ∃ (k : Nat) (t : List Str), p.head[k]? = some .eps ∧ s.transitions[k]? = some t ∧ p.NamedBy a.epsilonTransitions t) := by
  unfold nfaRow at h
  split at h
  · cases h
  · rename_i hl
    have hl' : s.transitions.length = p.head.length := by simpa using hl
    cases h1 : nfaEntries (p.states.map (·.name)) s.name epsIdx s.transitions 0 none with
    | error e => rw [h1] at h; cases h
    | ok x =>
      obtain ⟨eps, tr⟩ := x
      rw [h1] at h
      cases h
      obtain ⟨h2, h3⟩ := nfaEntries_ok p.head s.transitions 0 none eps tr hl'
        (by intro j _; rw [Nat.zero_add]; exact hE j) h1
      refine ⟨hl', ?_, rfl, rfl, rfl, ?_, ?_⟩
      · intro ts hts t ht
        obtain ⟨s', h4, h5⟩ := List.mem_map.1 (nfaEntries_ok_targets _ _ _ _ h1 ts hts t ht)
        exact ⟨s', h4, h5⟩
      · exact h2.imp fun js t h => h.imp fun j x h => named_iff.1 h
      · rcases h3 with ⟨rfl, h4⟩ | ⟨k, is, t, rfl, h4, h5, h6⟩
        · exact Or.inl ⟨rfl, h4⟩
        · exact Or.inr ⟨k, t, h4, h5, h6.imp fun j x h => named_iff.1 h⟩

theorem nfaRow_total {p : ParsedNfa} {epsIdx : Option Nat} {s : ParsedNfaState} (hl : s.transitions.length = p.head.length)
    (ht : ∀ ts ∈ s.transitions, ∀ t ∈ ts, ∃ s' ∈ p.states, s'.name = t) : ∃ a, nfaRow p epsIdx s = .ok a := by
  obtain ⟨x, h⟩ := nfaEntries_total (names := p.states.map (·.name)) (name := s.name) (epsIdx := epsIdx) s.transitions 0 none (by
    intro ts hts t h
    obtain ⟨s', h1, h2⟩ := ht ts hts t h
    exact List.mem_map.2 ⟨s', h1, h2⟩)
  unfold nfaRow
  rw [if_neg (by simp [hl]), h]
  exact ⟨_, rfl⟩

theorem nfaRow_error {p : ParsedNfa} {epsIdx : Option Nat} {s : ParsedNfaState} {e : ParseError} (hs : s ∈ p.states)
    (h : nfaRow p epsIdx s = .error e) : p.HasDefect e := by
  unfold nfaRow at h
  split at h
  · rename_i hl
    cases h
    exact ⟨by simpa using hl, rfl, s, hs, rfl, rfl⟩
  · cases h1 : nfaEntries (p.states.map (·.name)) s.name epsIdx s.transitions 0 none with
    | ok tr => rw [h1] at h; cases h
    | error e' =>
      rw [h1] at h
      cases h
      obtain ⟨ts, h2, t, h3, h4, rfl⟩ := nfaEntries_error _ _ _ _ h1
      refine ⟨⟨s, hs, rfl, ts, h2, h3⟩, ?_⟩
      intro s' hs' hn
      exact h4 (List.mem_map.2 ⟨s', hs', hn⟩)

theorem nfa_ok {p : ParsedNfa} {n : Nfa} (h : Validate.nfa p = .ok n) : p.Legal ∧ p.Describes n := by
  unfold Validate.nfa at h
  cases hh : nfaHead p.head 0 [] none with
  | error e => rw [hh] at h; cases h
  | ok epsIdx =>
    rw [hh] at h
    simp only at h
    have hE := epsAt_of_head hh
    obtain ⟨hnd, _, _⟩ := nfaHead_ok _ _ _ _ _ hh
    split at h
    · cases h
    · rename_i hn
      cases h1 : stateLoop (nfaRow p epsIdx) (·.initial) p.states 0 none with
      | error e => rw [h1] at h; cases h
      | ok x =>
        obtain ⟨states, init⟩ := x
        rw [h1] at h
        cases init with
        | none => cases h
        | some i =>
          cases h
          obtain ⟨h2, h3, h4⟩ := stateLoop_ok _ _ _ _ _ h1
          have hrow : ∀ s ∈ p.states, ∃ a, nfaRow p epsIdx s = .ok a := by
            intro s hs
            obtain ⟨k, hk⟩ := List.mem_iff_getElem?.1 hs
            obtain ⟨a, ha, _⟩ := h3 k s hk
            exact ⟨a, ha⟩
          have hrow' : ∀ (k : Nat) s s', p.states[k]? = some s → states[k]? = some s' → nfaRow p epsIdx s = .ok s' := by
            intro k s s' hs hs'
            obtain ⟨a, ha, ha'⟩ := h3 k s hs
            rw [hs'] at ha'
            cases ha'
            exact ha
          rcases h4 with ⟨h4, _⟩ | ⟨_, k, h5, h6, h7⟩
          · cases h4
          rw [Nat.zero_add] at h5
          cases h5
          rw [headElems_filterMap]
          refine ⟨⟨hnd, ?_, ?_, ?_, ?_, i, h6, h7⟩, ⟨rfl, h2, ?_, ?_, ?_, ?_, h6⟩⟩
          · intro a b ha hb
            have := ((hE a).1 ha).symm.trans ((hE b).1 hb)
            simpa using this
          · rw [← nameCount_eq]; simpa using hn
          · intro s hs
            obtain ⟨a, ha⟩ := hrow s hs
            exact (nfaRow_ok hE ha).1
          · intro s hs
            obtain ⟨a, ha⟩ := hrow s hs
            exact (nfaRow_ok hE ha).2.1
          · intro k s s' hs hs'
            obtain ⟨r1, _, r3, r4, r5, r6, _⟩ := nfaRow_ok hE (hrow' k s s' hs hs')
            exact ⟨r3, r4, r5, r6.length_eq.trans (elemCols_length _ _ r1)⟩
          · intro k c a s s' e ts hs hs' hc hts ha
            obtain ⟨r1, _, _, _, _, r6, _⟩ := nfaRow_ok hE (hrow' k s s' hs hs')
            obtain ⟨a', h8, h9⟩ := elemCols_at _ _ r1 c e ts hc hts
            obtain rfl := nodup_getElem? hnd ha h8
            have hlen := r6.length_eq
            have hlt := (List.getElem?_eq_some_iff.1 h9).1
            have := (List.forall₂_iff_get.1 r6).2 a (by omega) hlt
            refine ⟨_, List.getElem?_eq_getElem (by omega), ?_⟩
            simp only [List.get_eq_getElem] at this
            rwa [(List.getElem?_eq_some_iff.1 h9).2] at this
          · intro k c s s' ts hs hs' hc hts
            obtain ⟨_, _, _, _, _, _, r7⟩ := nfaRow_ok hE (hrow' k s s' hs hs')
            rcases r7 with ⟨_, r7⟩ | ⟨c', t, r7, r8, r9⟩
            · exact absurd (List.mem_of_getElem? hc) r7
            · have := ((hE c).1 hc).symm.trans ((hE c').1 r7)
              obtain rfl : c = c' := by simpa using this
              rw [hts] at r8
              cases r8
              exact r9
          · intro hne s' hs'
            obtain ⟨k, hk⟩ := List.mem_iff_getElem?.1 hs'
            have hk' := (List.getElem?_eq_some_iff.1 hk).1
            simp only at hk'
            obtain ⟨_, _, _, _, _, _, r7⟩ := nfaRow_ok hE (hrow' k _ s' (List.getElem?_eq_getElem (by omega)) hk)
            rcases r7 with ⟨r7, _⟩ | ⟨c', t, r7, _⟩
            · exact r7
            · exact absurd (List.mem_of_getElem? r7) hne

theorem nfa_total {p : ParsedNfa} (h : p.Legal) : ∃ d, Validate.nfa p = .ok d := by
  obtain ⟨i, ⟨s0, hs0, hi0⟩, huniq⟩ := h.initial
  obtain ⟨r, hr⟩ := nfaHead_total p.head 0 [] none h.elements (by simp) (Or.inl rfl) h.eps
  obtain ⟨⟨as, init⟩, hx⟩ := stateLoop_total (row := nfaRow p r) (isInit := (·.initial)) p.states 0 none
    (fun s hs => nfaRow_total (h.width s hs) (h.targets s hs)) (Or.inl rfl)
    (fun j k s t h1 h2 h3 h4 => (huniq j s h1 h3).trans (huniq k t h2 h4).symm)
  unfold Validate.nfa
  rw [hr]
  simp only
  rw [if_neg, hx]
  · cases init with
    | some i => exact ⟨_, rfl⟩
    | none =>
      rcases (stateLoop_ok _ _ _ _ _ hx).2.2 with ⟨_, h1⟩ | ⟨_, k, h1, _⟩
      · exact absurd hi0 (by simp [h1 s0 (List.mem_of_getElem? hs0)])
      · cases h1
  · have := (nameCount_eq (p.states.map (·.name))).2 h.names
    rw [List.length_map] at this
    simp [this]

theorem nfa_error {p : ParsedNfa} {e : ParseError} (h : Validate.nfa p = .error e) : p.HasDefect e := by
  unfold Validate.nfa at h
  cases hh : nfaHead p.head 0 [] none with
  | error e' =>
    rw [hh] at h
    cases h
    obtain ⟨d, rfl, h1⟩ := nfaHead_error _ _ _ _ _ hh
    rcases h1 with ⟨h1, _⟩ | ⟨_, h1, _⟩ | h1
    · cases h1
    · exact absurd rfl h1
    · exact h1
  | ok epsIdx =>
    rw [hh] at h
    simp only at h
    split at h
    · rename_i hn
      cases h
      obtain ⟨d, h1, h2⟩ := dup_names (f := (·.name)) (l := p.states) (by
        rw [← nameCount_eq]; simpa using hn)
      rw [h1]
      exact h2
    · cases h1 : stateLoop (nfaRow p epsIdx) (·.initial) p.states 0 none with
      | ok x =>
        obtain ⟨states, init⟩ := x
        rw [h1] at h
        cases init with
        | some i => cases h
        | none =>
          cases h
          rcases (stateLoop_ok _ _ _ _ _ h1).2.2 with ⟨_, h2⟩ | ⟨_, k, h2, _⟩
          · exact h2
          · cases h2
      | error e' =>
        rw [h1] at h
        cases h
        rcases stateLoop_error _ _ _ _ h1 with ⟨s, h2, h3⟩ | ⟨rfl, h2⟩
        · exact nfaRow_error h2 h3
        · rcases h2 with ⟨h2, _⟩ | h2
          · exact absurd rfl h2
          · exact h2

theorem headElems_mem_col {hs : List NfaAlphabetEntry} {a : Nat} {e : Str} (h : (headElems hs)[a]? = some e) :
    ∃ k : Nat, hs[k]? = some (.element e) :=
  List.mem_iff_getElem?.1 (mem_headElems.1 (List.mem_of_getElem? h))

theorem ParsedNfa.Describes.row {p : ParsedNfa} {n : Nfa} (hp : p.Legal) (h : p.Describes n) {i a : Nat} {s : ParsedNfaState}
    {s' : NfaState} {js : List Nat} (hs : p.states[i]? = some s) (hs' : n.states[i]? = some s') (hj : s'.transitions[a]? = some js) :
    ∃ (k : Nat) (e : Str) (ts : List Str), n.alphabet[a]? = some e ∧ p.head[k]? = some (.element e) ∧ s.transitions[k]? = some ts ∧
      p.NamedBy js ts := by
  have hl := (h.flags i s s' hs hs').2.2.2
  have ha := (List.getElem?_eq_some_iff.1 hj).1
  have hal : n.alphabet[a]? = some n.alphabet[a] := List.getElem?_eq_getElem (by omega)
  obtain ⟨k, hk⟩ := headElems_mem_col (hs := p.head) (a := a) (e := n.alphabet[a]) (by
    rw [← hal, h.alphabet]; rfl)
  have hk' := (List.getElem?_eq_some_iff.1 hk).1
  have hw := hp.width s (List.mem_of_getElem? hs)
  have ht : s.transitions[k]? = some s.transitions[k] := List.getElem?_eq_getElem (by omega)
  obtain ⟨js', h1, h2⟩ := h.columns i k a s s' _ _ hs hs' hk ht hal
  rw [hj] at h1
  cases h1
  exact ⟨k, _, _, hal, hk, ht, h2⟩

theorem ParsedNfa.Describes.wf {p : ParsedNfa} {n : Nfa} (hp : p.Legal) (h : p.Describes n) : n.WF := by
  have hget : ∀ (i : Nat) s', n.states[i]? = some s' → ∃ s, p.states[i]? = some s := by
    intro i s' hs'
    have := (List.getElem?_eq_some_iff.1 hs').1
    rw [h.count] at this
    exact ⟨_, List.getElem?_eq_getElem this⟩
  refine ⟨h.alphabet ▸ hp.elements, ?_, ?_, ?_, ?_, ?_, ?_⟩
  · rw [map_eq_of_rows h.count (fun i s s' h1 h2 => (h.flags i s s' h1 h2).1)]
    exact hp.names
  · intro s' hs'
    obtain ⟨i, hi⟩ := List.mem_iff_getElem?.1 hs'
    obtain ⟨s, hs⟩ := hget i s' hi
    exact (h.flags i s s' hs hi).2.2.2
  · intro s' hs' js hjs t ht
    obtain ⟨i, hi⟩ := List.mem_iff_getElem?.1 hs'
    obtain ⟨s, hs⟩ := hget i s' hi
    obtain ⟨a, ha⟩ := List.mem_iff_getElem?.1 hjs
    obtain ⟨k, e, ts, _, _, _, hN⟩ := h.row hp hs hi ha
    rw [h.count]
    exact forall₂_lt (f := fun st : ParsedNfaState => st.name) (l := p.states) hN t ht
  · intro s' hs' t ht
    obtain ⟨i, hi⟩ := List.mem_iff_getElem?.1 hs'
    obtain ⟨s, hs⟩ := hget i s' hi
    by_cases he : .eps ∈ p.head
    · obtain ⟨k, hk⟩ := List.mem_iff_getElem?.1 he
      have hk' := (List.getElem?_eq_some_iff.1 hk).1
      have hw := hp.width s (List.mem_of_getElem? hs)
      rw [h.count]
      exact forall₂_lt (f := fun st : ParsedNfaState => st.name) (l := p.states) (h.epsilon i k s s' _ hs hi hk (List.getElem?_eq_getElem (by omega))) t ht
    · rw [h.noEpsilon he s' hs'] at ht
      cases ht
  · obtain ⟨s, hs, _⟩ := h.initial
    rw [h.count]
    exact (List.getElem?_eq_some_iff.1 hs).1
  · intro i s' hs'
    obtain ⟨s, hs⟩ := hget i s' hs'
    rw [(h.flags i s s' hs hs').2.1]
    obtain ⟨s0, h0, h0'⟩ := h.initial
    obtain ⟨k, _, hk⟩ := hp.initial
    constructor
    · intro hi
      exact (hk i s hs hi).trans (hk _ s0 h0 h0').symm
    · rintro rfl
      rw [h0] at hs; cases hs; exact h0'

theorem ParsedNfa.Describes.unique {p : ParsedNfa} {n n' : Nfa} (hp : p.Legal) (h : p.Describes n) (h' : p.Describes n') : n = n' := by
  have h1 : n.alphabet = n'.alphabet := h.alphabet.trans h'.alphabet.symm
  have h2 : n.initialState = n'.initialState := by
    obtain ⟨s0, h0, h0'⟩ := h.initial
    obtain ⟨s1, h1, h1'⟩ := h'.initial
    obtain ⟨k, _, hk⟩ := hp.initial
    exact (hk _ s0 h0 h0').trans (hk _ s1 h1 h1').symm
  have c1 := h.count
  have c2 := h'.count
  have h3 : n.states = n'.states := by
    apply List.ext_getElem?
    intro i
    by_cases hi : i < p.states.length
    · have e1 : n.states[i]? = some n.states[i] := List.getElem?_eq_getElem (by omega)
      have e2 : n'.states[i]? = some n'.states[i] := List.getElem?_eq_getElem (by omega)
      have e3 := List.getElem?_eq_getElem hi
      obtain ⟨a1, a2, a3, a4⟩ := h.flags i _ _ e3 e1
      obtain ⟨b1, b2, b3, b4⟩ := h'.flags i _ _ e3 e2
      have htr : n.states[i].transitions = n'.states[i].transitions := by
        apply List.ext_getElem?
        intro a
        by_cases ha : a < n.alphabet.length
        · have f1 : n.states[i].transitions[a]? = some n.states[i].transitions[a] := List.getElem?_eq_getElem (by omega)
          obtain ⟨k, e, ts, g1, g2, g3, g4⟩ := h.row hp e3 e1 f1
          obtain ⟨js, g5, g6⟩ := h'.columns i k a _ _ e ts e3 e2 g2 g3 (h1 ▸ g1)
          rw [f1, g5, named_unique hp.names g4 g6]
        · rw [List.getElem?_eq_none (by omega), List.getElem?_eq_none (by rw [b4, ← h1]; omega)]
      have hep : n.states[i].epsilonTransitions = n'.states[i].epsilonTransitions := by
        by_cases he : .eps ∈ p.head
        · obtain ⟨k, hk⟩ := List.mem_iff_getElem?.1 he
          have hk' := (List.getElem?_eq_some_iff.1 hk).1
          have hw := hp.width _ (List.mem_of_getElem? e3)
          have g := List.getElem?_eq_getElem (l := p.states[i].transitions) (i := k) (by omega)
          exact named_unique hp.names (h.epsilon i k _ _ _ e3 e1 hk g) (h'.epsilon i k _ _ _ e3 e2 hk g)
        · rw [h.noEpsilon he _ (List.mem_of_getElem? e1), h'.noEpsilon he _ (List.mem_of_getElem? e2)]
      rw [e1, e2]
      generalize n.states[i] = x at *
      generalize n'.states[i] = y at *
      obtain ⟨n1, i1, ac1, ep1, t1⟩ := x
      obtain ⟨n2, i2, ac2, ep2, t2⟩ := y
      simp only at a1 a2 a3 b1 b2 b3 htr hep
      simp [a1, a2, a3, b1, b2, b3, htr, hep]
    · rw [List.getElem?_eq_none (by omega), List.getElem?_eq_none (by omega)]
  obtain ⟨al, st, i0⟩ := n
  obtain ⟨al', st', i0'⟩ := n'
  simp only at h1 h2 h3
  rw [h1, h2, h3]

end Dandy
