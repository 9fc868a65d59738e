import Verif.Proofs.NfaCore
import Verif.Proofs.DfaProduct
import Mathlib.Data.List.Sublists
/-! # Subset construction and equivalence of NFAs: lemmas -/

namespace Dandy

theorem findIdx?_beq_eq {α : Type} [BEq α] [LawfulBEq α] {l : List α} {x : α} (h : x ∈ l) :
    l.findIdx? (· == x) = some (l.idxOf x) := by
  induction l with
  | nil => simp at h
  | cons a l ih =>
    rw [List.findIdx?_cons, List.idxOf_cons]
    by_cases hax : a = x
    · subst hax; simp
    · have : (a == x) = false := by simpa using hax
      rw [this]
      simp only [Bool.false_eq_true, if_false, cond_false]
      rw [ih (by rw [List.mem_cons] at h; exact h.resolve_left (Ne.symm hax))]
      rfl

theorem lookup_map_key {σ κ β : Type} [BEq κ] [LawfulBEq κ] (key : σ → κ) (f : σ → β) (l : List σ)
    (hn : (l.map key).Nodup) {x : σ} (h : x ∈ l) : (l.map (fun y => (key y, f y))).lookup (key x) = some (f x) := by
  induction l with
  | nil => simp at h
  | cons a l ih =>
    rw [List.map_cons, List.nodup_cons] at hn
    rw [List.map_cons, List.lookup_cons]
    rcases List.mem_cons.1 h with rfl | hx
    · simp
    · have : (key x == key a) = false := by
        rw [beq_eq_false_iff_ne]
        intro he
        exact hn.1 (by rw [← he]; exact List.mem_map.2 ⟨x, hx, rfl⟩)
      rw [this]
      exact ih hn.2 hx

theorem sorted_mem_sublists {S : List Nat} {n : Nat} (hs : S.Pairwise (· < ·)) (hlt : ∀ x ∈ S, x < n) :
    S ∈ (List.range n).sublists := by
  rw [List.mem_sublists]
  have : S = (List.range n).filter (· ∈ S) :=
    sorted_ext hs (sorted_filter_range n _) (fun x => by simp; exact fun h => hlt x h)
  rw [this]; exact List.filter_sublist

namespace Nfa

/-- An evaluator in the state set `S`. -/
abbrev ev (n : Nfa) (S : List Nat) : NfaEval := ⟨n, S, false⟩

/-- State sets after some word. -/
def SetInv (n : Nfa) (S : List Nat) : Prop := ∃ w, n.IsAfter w S

theorem SetInv.nset {n : Nfa} (hn : n.WF) {S : List Nat} (h : n.SetInv S) {i : Nat} {e : Str}
    (hi : revGet n.alphabet e = some i) : n.SetInv (n.nset S i) := by
  obtain ⟨w, hw⟩ := h; exact ⟨_, isAfter_nset hn hw hi⟩

theorem SetInv.keys {n : Nfa} (hn : n.WF) {S : List Nat} (h : n.SetInv S) : S ∈ (List.range n.states.length).sublists := by
  obtain ⟨w, hw⟩ := h; exact sorted_mem_sublists hw.1 (hw.lt hn)

theorem setE_of_isAfter {n : Nfa} (hn : n.WF) {w : Word} {S : List Nat} (h : n.IsAfter w S) (hw : Over n.alphabet w) :
    n.setE n.iset w = some S := by
  obtain ⟨T, hT⟩ := setE_exists (S := n.iset) hw
  have := isAfter_setE hn (isAfter_iset hn) hT
  rw [List.nil_append] at this
  rw [hT, h.unique this]

theorem stepAll_ev {n : Nfa} (S : List Nat) :
    (n.ev S).stepAll = n.alphabet.map (fun e => n.ev (n.nset S ((revGet n.alphabet e).getD 0))) := by
  unfold NfaEval.stepAll
  apply List.map_congr_left
  intro e he
  obtain ⟨i, hi⟩ := revGet_exists he
  rw [NfaEval.step_known hi, hi]; rfl

theorem mem_stepAll {n : Nfa} {S : List Nat} {p : NfaEval} :
    p ∈ (n.ev S).stepAll ↔ ∃ e i, revGet n.alphabet e = some i ∧ p = n.ev (n.nset S i) := by
  rw [stepAll_ev, List.mem_map]
  constructor
  · rintro ⟨e, he, rfl⟩
    obtain ⟨i, hi⟩ := revGet_exists he
    exact ⟨e, i, hi, by rw [hi]; rfl⟩
  · rintro ⟨e, i, hi, rfl⟩
    exact ⟨e, List.mem_of_getElem? (revGet_some hi), by rw [hi]; rfl⟩

theorem ev_reach {n : Nfa} {S : List Nat} {p : NfaEval} :
    Relation.ReflTransGen (fun a b => b ∈ NfaEval.stepAll a) (n.ev S) p ↔
      ∃ w T, n.setE S w = some T ∧ p = n.ev T := by
  constructor
  · intro h
    induction h with
    | refl => exact ⟨[], S, rfl, rfl⟩
    | tail _ h2 ih =>
      obtain ⟨w, T, h3, rfl⟩ := ih
      obtain ⟨e, i, hi, rfl⟩ := mem_stepAll.1 h2
      exact ⟨w ++ [e], _, by rw [setE_append, h3]; simp [setE, hi], rfl⟩
  · rintro ⟨w, T, h, rfl⟩
    induction w generalizing S with
    | nil => simp only [setE, Option.some.injEq] at h; subst h; exact .refl
    | cons e w ih =>
      simp only [setE] at h
      cases hi : revGet n.alphabet e with
      | none => simp [hi] at h
      | some i =>
        simp only [hi, Option.bind_some] at h
        exact .head (mem_stepAll.2 ⟨e, i, hi, rfl⟩) (ih h)

/-- The subset automaton given the list of state sets. -/
def subsetOf (n : Nfa) (ks : List (List Nat)) : Dfa :=
  { alphabet := n.alphabet,
    states := ks.zipIdx.map (fun p =>
      { name := numStr p.2, initial := p.2 == 0, accepting := p.1.any (fun q => (n.state q).accepting),
        transitions := n.alphabet.map (fun e => ks.idxOf (n.nset p.1 ((revGet n.alphabet e).getD 0))) }),
    initialState := 0 }

/-- The facts about the list of state sets. -/
structure SubsetKeys (n : Nfa) (ks : List (List Nat)) : Prop where
  nodup : ks.Nodup
  head : ∃ rest, ks = n.iset :: rest
  mem_iff : ∀ S, S ∈ ks ↔ ∃ w, n.setE n.iset w = some S

theorem toDfa_explore {n : Nfa} (hn : n.WF) : ∃ out seen, explore NfaEval.currentStatesIdx NfaEval.stepAll (fun _ => true)
      (2 ^ n.states.length + 1) [NfaEval.new n] [NfaEval.new n] [] = some (some (out, seen)) ∧
    n.toDfa = some (subsetOf n (seen.map NfaEval.currentStatesIdx)) ∧ SubsetKeys n (seen.map NfaEval.currentStatesIdx) := by
  unfold toDfa
  have hI : ∀ ev, Relation.ReflTransGen (fun a b => b ∈ NfaEval.stepAll a) (n.ev n.iset) ev → ∃ S, ev = n.ev S ∧ n.SetInv S := by
    intro ev hev
    obtain ⟨w, T, h1, rfl⟩ := ev_reach.1 hev
    exact ⟨T, rfl, w, by simpa using isAfter_setE hn (isAfter_iset hn) h1⟩
  rcases explore_spec (key := NfaEval.currentStatesIdx) (succ := NfaEval.stepAll) (ok := fun _ => true)
    (fun p => ∃ S, p = n.ev S ∧ n.SetInv S) (s0 := NfaEval.new n) (List.range n.states.length).sublists
    (fuel := 2 ^ n.states.length + 1)
    ⟨n.iset, rfl, [], isAfter_iset hn⟩
    (by
      rintro _ ⟨S, rfl, hS⟩ t ht
      obtain ⟨e, i, hi, rfl⟩ := mem_stepAll.1 ht
      exact ⟨_, rfl, hS.nset hn hi⟩)
    (by
      rintro _ _ ⟨S, rfl, _⟩ ⟨T, rfl, _⟩ h
      simp only [NfaEval.currentStatesIdx] at h
      rw [h])
    (by rintro _ ⟨S, rfl, h⟩; exact h.keys hn)
    (by simp) with ⟨_, s, _, hs⟩ | ⟨out, seen, he, hE⟩
  · cases hs
  dsimp only
  rw [he]
  simp only [Option.bind_eq_bind, Option.bind_some, Option.pure_def]
  have hmem : ∀ p, p ∈ seen ↔ ∃ w T, n.setE n.iset w = some T ∧ p = n.ev T := by
    intro p; rw [hE.mem_iff, NfaEval.new_eq, ev_reach]
  have hks : SubsetKeys n (seen.map NfaEval.currentStatesIdx) := by
    refine ⟨hE.keys_nodup, ?_, ?_⟩
    · obtain ⟨rest, hr⟩ := hE.head
      exact ⟨rest.map NfaEval.currentStatesIdx, by rw [hr]; rfl⟩
    · intro S
      rw [List.mem_map]
      constructor
      · rintro ⟨p, hp, rfl⟩
        obtain ⟨w, T, h1, rfl⟩ := (hmem p).1 hp
        exact ⟨w, h1⟩
      · rintro ⟨w, hw⟩; exact ⟨n.ev S, (hmem _).2 ⟨w, S, hw, rfl⟩, rfl⟩
  refine ⟨out, seen, rfl, ?_, hks⟩
  have h1 : out.mapM (fun ev => (ev.stepAll.mapM (fun ev' =>
        (seen.map NfaEval.currentStatesIdx).findIdx? (· == ev'.currentStatesIdx))).bind
        (fun tr => some (ev.currentStatesIdx, tr))) =
      some (out.map (fun ev => (ev.currentStatesIdx, n.alphabet.map (fun e =>
        (seen.map NfaEval.currentStatesIdx).idxOf (n.nset ev.currentStatesIdx ((revGet n.alphabet e).getD 0)))))) := by
    apply mapM_some
    intro p hp
    rw [← hE.perm.mem_iff] at hp
    obtain ⟨w, T, h1, rfl⟩ := (hmem p).1 hp
    rw [mapM_some (g := fun ev' => (seen.map NfaEval.currentStatesIdx).idxOf ev'.currentStatesIdx)]
    · rw [stepAll_ev]
      simp only [Option.bind_some, List.map_map]
      rfl
    · intro ev' hev'
      obtain ⟨e, i, hi, rfl⟩ := mem_stepAll.1 hev'
      apply findIdx?_beq_eq
      exact (hks.mem_iff _).2 ⟨w ++ [e], by rw [setE_append, h1]; simp [setE, hi, NfaEval.currentStatesIdx]⟩
  rw [h1]
  simp only [Option.bind_some]
  rw [mapM_some (g := fun p : NfaEval × Nat =>
      ({ name := numStr p.2, initial := p.2 == 0,
         accepting := p.1.isAccepting,
         transitions := n.alphabet.map (fun e => (seen.map NfaEval.currentStatesIdx).idxOf
           (n.nset p.1.currentStatesIdx ((revGet n.alphabet e).getD 0))) } : DfaState))]
  · simp only [Option.bind_some, subsetOf, Option.some.injEq, Dfa.mk.injEq, true_and, and_true]
    rw [List.zipIdx_map, List.map_map]
    apply List.map_congr_left
    rintro ⟨p, i⟩ hp
    have hp' : p ∈ seen := List.mem_of_getElem? (List.mem_zipIdx_iff_getElem?.1 hp)
    obtain ⟨w, T, h1, rfl⟩ := (hmem p).1 hp'
    rfl
  · rintro ⟨p, i⟩ hp
    have hp' : p ∈ seen := List.mem_of_getElem? (List.mem_zipIdx_iff_getElem?.1 hp)
    have hl := lookup_map_key NfaEval.currentStatesIdx (fun ev : NfaEval => n.alphabet.map (fun e =>
        (seen.map NfaEval.currentStatesIdx).idxOf (n.nset ev.currentStatesIdx ((revGet n.alphabet e).getD 0))))
      out ((hE.perm.map _).nodup_iff.1 hE.keys_nodup) (hE.perm.mem_iff.1 hp')
    simp only
    rw [hl]; rfl

theorem toDfa_eq {n : Nfa} (hn : n.WF) : ∃ ks, n.toDfa = some (subsetOf n ks) ∧ SubsetKeys n ks := by
  obtain ⟨_, seen, _, h⟩ := toDfa_explore hn
  exact ⟨_, h⟩

theorem subsetOf_state {n : Nfa} {ks : List (List Nat)} {S : List Nat} (hS : S ∈ ks) :
    (subsetOf n ks).states[ks.idxOf S]? = some
      { name := numStr (ks.idxOf S), initial := ks.idxOf S == 0, accepting := S.any (fun q => (n.state q).accepting),
        transitions := n.alphabet.map (fun e => ks.idxOf (n.nset S ((revGet n.alphabet e).getD 0))) } := by
  have hlt := List.idxOf_lt_length_iff.2 hS
  simp [subsetOf, List.getElem?_map, List.getElem?_zipIdx, List.getElem?_eq_getElem hlt]

theorem subsetKeys_step {n : Nfa} {ks : List (List Nat)} (hks : SubsetKeys n ks) {S : List Nat} {e : Str} {i : Nat}
    (hS : S ∈ ks) (hi : revGet n.alphabet e = some i) : n.nset S i ∈ ks := by
  obtain ⟨w, h⟩ := (hks.mem_iff _).1 hS
  exact (hks.mem_iff _).2 ⟨w ++ [e], by rw [setE_append, h]; simp [setE, hi]⟩

theorem subsetOf_wf {n : Nfa} (hn : n.WF) {ks : List (List Nat)} (hks : SubsetKeys n ks) : (subsetOf n ks).WF := by
  refine ⟨hn.alphabet_nodup, ?_, ?_, ?_, ?_, ?_⟩
  · have : (subsetOf n ks).states.map (·.name) = (List.range ks.length).map numStr := by
      apply List.ext_getElem?
      intro i
      simp only [subsetOf, List.map_map, List.getElem?_map, List.getElem?_zipIdx, List.getElem?_range]
      by_cases h : i < ks.length
      · simp [h]
      · simp [h]
    rw [this]
    exact List.Nodup.map_on (fun a _ b _ h => numStr_inj h) List.nodup_range
  · intro s hs
    obtain ⟨k, hk, rfl⟩ := List.mem_map.1 hs
    simp [subsetOf]
  · intro s hs t ht
    obtain ⟨⟨S, i⟩, hk, rfl⟩ := List.mem_map.1 hs
    obtain ⟨e, he, rfl⟩ := List.mem_map.1 ht
    obtain ⟨j, hj⟩ := revGet_exists he
    have hS : S ∈ ks := List.mem_of_getElem? (List.mem_zipIdx_iff_getElem?.1 hk)
    simp only [subsetOf, List.length_map, List.length_zipIdx, hj, Option.getD_some]
    exact List.idxOf_lt_length_iff.2 (subsetKeys_step hks hS hj)
  · obtain ⟨rest, hr⟩ := hks.head
    simp [subsetOf, hr]
  · intro i s hs
    simp only [subsetOf, List.getElem?_map, Option.map_eq_some_iff] at hs
    obtain ⟨⟨S, j⟩, hk, rfl⟩ := hs
    rw [List.getElem?_zipIdx, Option.map_eq_some_iff] at hk
    obtain ⟨T, _, h2⟩ := hk
    cases h2
    simp [subsetOf]

theorem subsetOf_runE {n : Nfa} {ks : List (List Nat)} (hks : SubsetKeys n ks) (w : Word) {S : List Nat} (hS : S ∈ ks) :
    (subsetOf n ks).runE (ks.idxOf S) w = (n.setE S w).map ks.idxOf ∧ ∀ T, n.setE S w = some T → T ∈ ks := by
  induction w generalizing S with
  | nil => simp only [Dfa.runE, setE, Option.map_some, true_and, Option.some.injEq]; rintro T rfl; exact hS
  | cons e w ih =>
    cases hi : revGet n.alphabet e with
    | none =>
      have h2 : (subsetOf n ks).nxt (ks.idxOf S) e = none := Dfa.nxt_none.2 (revGet_none.1 hi)
      simp [Dfa.runE, setE, hi, h2]
    | some i =>
      have hn : (subsetOf n ks).nxt (ks.idxOf S) e = some (ks.idxOf (n.nset S i)) := by
        have hst := Dfa.state_of_getElem? (subsetOf_state (n := n) hS)
        have hi2 := revGet_some hi
        have : (subsetOf n ks).alphabet = n.alphabet := rfl
        unfold Dfa.nxt
        rw [this, hi, hst]
        simp [hi2, hi]
      simp only [Dfa.runE, hn, setE, hi, Option.bind_some]
      exact ih (subsetKeys_step hks hS hi)

theorem idxOf_iset {n : Nfa} {ks : List (List Nat)} (hks : SubsetKeys n ks) : ks.idxOf n.iset = 0 ∧ n.iset ∈ ks := by
  obtain ⟨rest, hr⟩ := hks.head
  simp [hr]

theorem subsetOf_lang {n : Nfa} (hn : n.WF) {ks : List (List Nat)} (hks : SubsetKeys n ks) (w : Word) :
    (subsetOf n ks).Lang w ↔ n.Lang w := by
  rw [Dfa.lang_iff (subsetOf_wf hn hks)]
  obtain ⟨h0, hmem⟩ := idxOf_iset hks
  obtain ⟨h1, h2⟩ := subsetOf_runE hks w hmem
  rw [h0] at h1
  have : (subsetOf n ks).initialState = 0 := rfl
  rw [this, h1]
  cases hr : n.setE n.iset w with
  | none =>
    rw [setE_none] at hr
    obtain ⟨e, h3, h4⟩ := hr
    simp only [Option.map_none, reduceCtorEq, false_and, exists_false, false_iff]
    intro hl; exact h4 (over_of_lang hl e h3)
  | some T =>
    have ha := isAfter_setE hn (isAfter_iset hn) hr
    rw [List.nil_append] at ha
    rw [lang_iff ha]
    have hst := Dfa.state_of_getElem? (subsetOf_state (n := n) (h2 T hr))
    simp only [Option.map_some, Option.some.injEq, exists_eq_left', hst]

theorem subsetOf_reachable {n : Nfa} (hn : n.WF) {ks : List (List Nat)} (hks : SubsetKeys n ks)
    (i : Nat) (hi : i < (subsetOf n ks).states.length) :
    ∃ w, (subsetOf n ks).Run (subsetOf n ks).initialState w i := by
  have hwf := subsetOf_wf hn hks
  simp only [subsetOf, List.length_map, List.length_zipIdx] at hi
  obtain ⟨w, h1⟩ := (hks.mem_iff ks[i]).1 (List.getElem_mem hi)
  refine ⟨w, (Dfa.run_iff hwf hwf.init_lt).2 ?_⟩
  obtain ⟨h0, hmem⟩ := idxOf_iset hks
  obtain ⟨h2, _⟩ := subsetOf_runE hks w hmem
  rw [h0, h1] at h2
  have : (subsetOf n ks).initialState = 0 := rfl
  rw [this, h2, Option.map_some, hks.nodup.idxOf_getElem i hi]

theorem subsetOf_length {n : Nfa} (hn : n.WF) {ks : List (List Nat)} (hks : SubsetKeys n ks) :
    (subsetOf n ks).states.length ≤ 2 ^ n.states.length := by
  simp only [subsetOf, List.length_map, List.length_zipIdx]
  have := nodup_subset_length_le hks.nodup (K := (List.range n.states.length).sublists) (by
    intro S hS
    obtain ⟨w, hw⟩ := (hks.mem_iff S).1 hS
    exact SetInv.keys hn ⟨_, isAfter_setE hn (isAfter_iset hn) hw⟩)
  simpa [List.length_sublists] using this

/-! ## Equivalence of NFAs -/

/-- The evaluator pair at state sets `S`, `T`. -/
abbrev evp (n o : Nfa) (S T : List Nat) : NfaEval × NfaEval := (n.ev S, o.ev T)

theorem pairSucc_mem {n o : Nfa} (h : SameElems n.alphabet o.alphabet) {S T : List Nat} {p : NfaEval × NfaEval} :
    p ∈ pairSucc n.alphabet (evp n o S T) ↔
      ∃ e i j, revGet n.alphabet e = some i ∧ revGet o.alphabet e = some j ∧ p = evp n o (n.nset S i) (o.nset T j) := by
  unfold pairSucc
  rw [List.mem_map]
  constructor
  · rintro ⟨e, he, rfl⟩
    obtain ⟨i, h1⟩ := revGet_exists he
    obtain ⟨j, h2⟩ := revGet_exists ((h e).1 he)
    exact ⟨e, i, j, h1, h2, by rw [NfaEval.step_known h1, NfaEval.step_known h2]⟩
  · rintro ⟨e, i, j, h1, h2, rfl⟩
    exact ⟨e, List.mem_of_getElem? (revGet_some h1), by rw [NfaEval.step_known h1, NfaEval.step_known h2]⟩

theorem pair_reach {n o : Nfa} (h : SameElems n.alphabet o.alphabet) {S T : List Nat} {p : NfaEval × NfaEval} :
    Relation.ReflTransGen (fun a b => b ∈ pairSucc n.alphabet a) (evp n o S T) p ↔
      ∃ w S' T', n.setE S w = some S' ∧ o.setE T w = some T' ∧ p = evp n o S' T' := by
  constructor
  · intro hr
    induction hr with
    | refl => exact ⟨[], S, T, rfl, rfl, rfl⟩
    | tail _ hbc ih =>
      obtain ⟨w, S', T', h1, h2, rfl⟩ := ih
      obtain ⟨e, i, j, h3, h4, rfl⟩ := (pairSucc_mem h).1 hbc
      exact ⟨w ++ [e], _, _, by rw [setE_append, h1]; simp [setE, h3], by rw [setE_append, h2]; simp [setE, h4], rfl⟩
  · rintro ⟨w, S', T', h1, h2, rfl⟩
    induction w generalizing S T with
    | nil =>
      simp only [setE, Option.some.injEq] at h1 h2
      subst h1; subst h2; exact .refl
    | cons e w ih =>
      simp only [setE] at h1 h2
      cases hn1 : revGet n.alphabet e with
      | none => simp [hn1] at h1
      | some i =>
        cases hn2 : revGet o.alphabet e with
        | none => simp [hn2] at h2
        | some j =>
          simp only [hn1, hn2, Option.bind_some] at h1 h2
          exact Relation.ReflTransGen.head ((pairSucc_mem h).2 ⟨e, i, j, hn1, hn2, rfl⟩) (ih h1 h2)

theorem equivalentTo_spec {n o : Nfa} (hn : n.WF) (ho : o.WF) :
    ∃ b, equivalentTo n o = some b ∧
      (b = true ↔ SameElems n.alphabet o.alphabet ∧ ∀ w, n.Lang w ↔ o.Lang w) := by
  unfold equivalentTo
  by_cases h : SameElems n.alphabet o.alphabet
  · rw [(alphabetEqual_iff hn.alphabet_nodup ho.alphabet_nodup).2 h]
    simp only [Bool.not_true, Bool.false_eq_true, if_false]
    have hinit : (NfaEval.new n, NfaEval.new o) = evp n o n.iset o.iset := rfl
    have hexp := explore_spec (key := pairKey) (succ := pairSucc n.alphabet)
      (ok := fun p => p.1.isAccepting == p.2.isAccepting)
      (fun p => ∃ S T, p = evp n o S T ∧ n.SetInv S ∧ o.SetInv T) (s0 := (NfaEval.new n, NfaEval.new o))
      ((List.range n.states.length).sublists ×ˢ (List.range o.states.length).sublists)
      (fuel := 2 ^ (n.states.length + o.states.length) + 1)
      ⟨n.iset, o.iset, rfl, ⟨[], isAfter_iset hn⟩, ⟨[], isAfter_iset ho⟩⟩
      (by
        rintro _ ⟨S, T, rfl, hS, hT⟩ t ht
        obtain ⟨e, i, j, h1, h2, rfl⟩ := (pairSucc_mem h).1 ht
        exact ⟨_, _, rfl, hS.nset hn h1, hT.nset ho h2⟩)
      (by
        rintro _ _ ⟨S, T, rfl, _⟩ ⟨S', T', rfl, _⟩ h
        simp only [pairKey, NfaEval.currentStatesIdx, Prod.mk.injEq] at h
        rw [h.1, h.2])
      (by
        rintro _ ⟨S, T, rfl, hS, hT⟩
        rw [pairKey, List.mem_product]
        exact ⟨hS.keys hn, hT.keys ho⟩)
      (by rw [List.length_product]; simp [Nat.pow_add])
    rcases hexp with ⟨he, s, hs, hok⟩ | ⟨out, seen, he, hE⟩
    · rw [he]
      refine ⟨false, rfl, ?_⟩
      simp only [Bool.false_eq_true, false_iff]
      rintro ⟨_, hl⟩
      rw [hinit, pair_reach h] at hs
      obtain ⟨w, t1, t2, h1, h2, rfl⟩ := hs
      have := hl w
      have a1 := isAfter_setE hn (isAfter_iset hn) h1
      have a2 := isAfter_setE ho (isAfter_iset ho) h2
      rw [List.nil_append] at a1 a2
      rw [lang_iff a1, lang_iff a2] at this
      simp only [NfaEval.isAccepting, Bool.false_eq_true, if_false, beq_eq_false_iff_ne] at hok
      exact hok (Bool.eq_iff_iff.2 this)
    · rw [he]
      refine ⟨true, rfl, ?_⟩
      simp only [true_iff]
      refine ⟨h, fun w => ?_⟩
      by_cases hw : Over n.alphabet w
      · obtain ⟨t1, h1⟩ := setE_exists (n := n) (S := n.iset) hw
        obtain ⟨t2, h2⟩ := setE_exists (n := o) (S := o.iset) (fun e he => (h e).1 (hw e he))
        have hmem := (hE.mem_iff (evp n o t1 t2)).2 (by rw [hinit, pair_reach h]; exact ⟨w, t1, t2, h1, h2, rfl⟩)
        have := hE.all_ok _ hmem
        simp only [NfaEval.isAccepting, Bool.false_eq_true, if_false, beq_iff_eq] at this
        have a1 := isAfter_setE hn (isAfter_iset hn) h1
        have a2 := isAfter_setE ho (isAfter_iset ho) h2
        rw [List.nil_append] at a1 a2
        rw [lang_iff a1, lang_iff a2, this]
      · constructor
        · intro hl; exact absurd (over_of_lang hl) hw
        · intro hl; exact absurd (fun e he => (h e).2 (over_of_lang hl e he)) hw
  · have : alphabetEqual n.alphabet o.alphabet = false := by
      rw [← Bool.not_eq_true, alphabetEqual_iff hn.alphabet_nodup ho.alphabet_nodup]; exact h
    rw [this]
    exact ⟨false, rfl, by simp [h]⟩

end Nfa
end Dandy
