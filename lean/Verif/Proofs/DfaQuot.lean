import Verif.Proofs.Remove
/-! # Reachable states, and the DFA obtained by keeping some states and redirecting transitions along a map -/

namespace Dandy
namespace Dfa

/-- The states some word leads to. -/
def Reach (d : Dfa) (q : Nat) : Prop := ∃ w, d.runE d.initialState w = some q

theorem succ_iff {d : Dfa} (hd : d.WF) {q t : Nat} (hq : q < d.states.length) :
    t ∈ (d.state q).transitions ↔ ∃ e, d.nxt q e = some t := by
  have hl := hd.row_len _ (state_mem hq)
  constructor
  · intro h
    obtain ⟨i, hi⟩ := List.getElem?_of_mem h
    have hlt := lt_of_getElem? hi
    rw [hl] at hlt
    exact ⟨_, (nxt_iff hd hq).2 ⟨i, getElem?_of_lt [] hlt, hi⟩⟩
  · rintro ⟨e, he⟩
    obtain ⟨i, _, h2⟩ := (nxt_iff hd hq).1 he
    exact List.mem_of_getElem? h2

theorem reach_iff {d : Dfa} (hd : d.WF) {q : Nat} :
    Relation.ReflTransGen (fun a b => b ∈ (d.state a).transitions) d.initialState q ↔ d.Reach q := by
  constructor
  · intro h
    induction h with
    | refl => exact ⟨[], rfl⟩
    | tail _ hbc ih =>
      obtain ⟨w, hw⟩ := ih
      obtain ⟨e, he⟩ := (succ_iff hd (runE_lt hd hd.init_lt hw)).1 hbc
      exact ⟨w ++ [e], by rw [runE_append, hw]; simp [runE, he]⟩
  · rintro ⟨w, hw⟩
    have : ∀ (w : Word) (p : Nat), p < d.states.length → d.runE p w = some q →
        Relation.ReflTransGen (fun a b => b ∈ (d.state a).transitions) p q := by
      intro w
      induction w with
      | nil => intro p _ h; simp only [runE, Option.some.injEq] at h; subst h; exact .refl
      | cons e w ih =>
        intro p hp h
        simp only [runE] at h
        cases hn : d.nxt p e with
        | none => simp [hn] at h
        | some t =>
          simp only [hn, Option.bind_some] at h
          exact .head ((succ_iff hd hp).2 ⟨e, hn⟩) (ih t (nxt_lt hd hp hn) h)
    exact this w _ hd.init_lt hw

theorem reachableStateIdx_spec {d : Dfa} (hd : d.WF) :
    ∃ r, d.reachableStateIdx = some r ∧ r.Pairwise (· < ·) ∧ ∀ q, q ∈ r ↔ d.Reach q := by
  obtain ⟨r, h1, h2, h3⟩ := bfs_spec (succ := fun q => some (d.state q).transitions)
    (f := fun q => (d.state q).transitions) (n := d.states.length) (start := d.initialState)
    (fun _ _ => rfl) (fun q hq t ht => hd.targets _ (state_mem hq) t ht) hd.init_lt
  exact ⟨r, h1, h2, fun q => by rw [h3, reach_iff hd]⟩

theorem Reach.lt {d : Dfa} (hd : d.WF) {q : Nat} (h : d.Reach q) : q < d.states.length := by
  obtain ⟨w, hw⟩ := h; exact runE_lt hd hd.init_lt hw

theorem unreachableStateIdx_spec {d : Dfa} (hd : d.WF) :
    ∃ r, d.unreachableStateIdx = some r ∧ r.Pairwise (· < ·) ∧ ∀ q, q ∈ r ↔ q < d.states.length ∧ ¬ d.Reach q := by
  obtain ⟨r, h1, _, h3⟩ := reachableStateIdx_spec hd
  exact ⟨_, by rw [unreachableStateIdx, h1]; rfl, sorted_filter_range _ _, fun q => by simp [h3]⟩

/-! ## Quotients -/

/-- The DFA on the states `kept`, transitions redirected by `f`. -/
def quot (d : Dfa) (kept : List Nat) (f : Nat → Nat) : Dfa :=
  { alphabet := d.alphabet
    states := kept.map (fun q => { d.state q with
      initial := decide (q = f d.initialState)
      transitions := (d.state q).transitions.map (fun t => kept.idxOf (f t)) })
    initialState := kept.idxOf (f d.initialState) }

/-- What makes a quotient meaningful. -/
structure QuotOk (d : Dfa) (kept : List Nat) (f : Nat → Nat) : Prop where
  nodup : kept.Nodup
  lt : ∀ q ∈ kept, q < d.states.length
  init : f d.initialState ∈ kept
  step : ∀ q ∈ kept, ∀ t ∈ (d.state q).transitions, f t ∈ kept

variable {d : Dfa} {kept : List Nat} {f : Nat → Nat}

theorem quot_state {q : Nat} (hq : q ∈ kept) : (quot d kept f).state (kept.idxOf q) =
    { d.state q with
      initial := decide (q = f d.initialState)
      transitions := (d.state q).transitions.map (fun t => kept.idxOf (f t)) } := by
  apply state_of_getElem?
  have h := List.getElem?_idxOf hq
  simp [quot, h]

theorem quot_wf (hd : d.WF) (h : QuotOk d kept f) : (quot d kept f).WF := by
  have hlen : (quot d kept f).states.length = kept.length := by simp [quot]
  refine ⟨hd.alphabet_nodup, ?_, ?_, ?_, ?_, ?_⟩
  · simp only [quot, List.map_map]
    rw [List.nodup_map_iff_inj_on h.nodup]
    intro x hx y hy hxy
    simp only [Function.comp_apply] at hxy
    have e1 := getElem?_state (h.lt x hx)
    have e2 := getElem?_state (h.lt y hy)
    have hn := hd.names_nodup
    have m1 : (d.states.map (·.name))[x]? = some (d.state x).name := by simp [e1]
    have m2 : (d.states.map (·.name))[y]? = some (d.state x).name := by simp [e2, hxy]
    exact (List.getElem?_inj (by simpa using h.lt x hx) hn).1 (m1.trans m2.symm)
  · intro s hs
    simp only [quot, List.mem_map] at hs
    obtain ⟨q, hq, rfl⟩ := hs
    simpa [quot] using hd.row_len _ (state_mem (h.lt q hq))
  · intro s hs t ht
    rw [hlen]
    simp only [quot, List.mem_map] at hs
    obtain ⟨q, hq, rfl⟩ := hs
    simp only [List.mem_map] at ht
    obtain ⟨t, ht, rfl⟩ := ht
    exact List.idxOf_lt_length_of_mem (h.step q hq t ht)
  · rw [hlen]; exact List.idxOf_lt_length_of_mem h.init
  · intro i s hs
    simp only [quot, List.getElem?_map, Option.map_eq_some_iff] at hs
    obtain ⟨q, hq, rfl⟩ := hs
    have hqm := List.mem_of_getElem? hq
    simp only [decide_eq_true_eq, quot]
    constructor
    · rintro rfl
      exact (List.getElem?_inj (lt_of_getElem? hq) h.nodup).1 (hq.trans (List.getElem?_idxOf hqm).symm)
    · rintro rfl
      have := List.getElem?_idxOf h.init
      rw [hq] at this; exact Option.some.inj this

theorem quot_nxt (hd : d.WF) (h : QuotOk d kept f) {q : Nat} {e : Str} (hq : q ∈ kept) :
    (quot d kept f).nxt (kept.idxOf q) e = (d.nxt q e).map (fun t => kept.idxOf (f t)) := by
  have hlen := hd.row_len _ (state_mem (h.lt q hq))
  unfold nxt
  rw [quot_state hq]
  show (revGet d.alphabet e).map _ = _
  cases hr : revGet d.alphabet e with
  | none => rfl
  | some i =>
    have hi := revGet_lt hr
    rw [← hlen] at hi
    simp [hi]

theorem quot_runE (hd : d.WF) (h : QuotOk d kept f)
    (hmem : ∀ q < d.states.length, f q ∈ kept)
    (hcong : ∀ q < d.states.length, ∀ e t u, d.nxt q e = some t → d.nxt (f q) e = some u → f u = f t)
    {q : Nat} (hq : q < d.states.length) (w : Word) :
    (quot d kept f).runE (kept.idxOf (f q)) w = (d.runE q w).map (fun t => kept.idxOf (f t)) := by
  induction w generalizing q with
  | nil => rfl
  | cons e w ih =>
    simp only [runE]
    rw [quot_nxt hd h (hmem q hq)]
    by_cases he : e ∈ d.alphabet
    · obtain ⟨t, ht⟩ := nxt_exists (d := d) (q := q) he
      obtain ⟨u, hu⟩ := nxt_exists (d := d) (q := f q) he
      rw [ht, hu]
      simp only [Option.map_some, Option.bind_some]
      rw [hcong q hq e t u ht hu]
      exact ih (nxt_lt hd hq ht)
    · rw [nxt_none.2 he, nxt_none.2 he]; rfl

/-- The same when only the states in `kept` matter and `f` is the identity. -/
theorem quot_id_runE (hd : d.WF) (h : QuotOk d kept id) {q : Nat} (hq : q ∈ kept) (w : Word) :
    (quot d kept id).runE (kept.idxOf q) w = (d.runE q w).map (fun t => kept.idxOf t) ∧
    ∀ r, d.runE q w = some r → r ∈ kept := by
  induction w generalizing q with
  | nil => exact ⟨rfl, by simp only [runE, Option.some.injEq]; rintro r rfl; exact hq⟩
  | cons e w ih =>
    simp only [runE]
    rw [quot_nxt hd h hq]
    cases hn : d.nxt q e with
    | none => simp
    | some t =>
      simp only [Option.map_some, Option.bind_some, id]
      exact ih (h.step q hq t ((succ_iff hd (h.lt q hq)).2 ⟨e, hn⟩))

theorem quot_id_lang (hd : d.WF) (h : QuotOk d kept id) (w : Word) : (quot d kept id).Lang w ↔ d.Lang w := by
  have hi : d.initialState ∈ kept := h.init
  obtain ⟨h1, h2⟩ := quot_id_runE hd h hi w
  rw [lang_iff (quot_wf hd h), lang_iff hd]
  show (∃ q, (quot d kept id).runE (kept.idxOf d.initialState) w = some q ∧ _) ↔ _
  rw [h1]
  cases hr : d.runE d.initialState w with
  | none => simp
  | some r =>
    simp only [Option.map_some, Option.some.injEq, exists_eq_left']
    rw [quot_state (h2 r hr)]

theorem removeUnreachableStates_eq {ord : List Nat → List Nat} (hord : ∀ l, (ord l).Perm l) {d : Dfa} (hd : d.WF) :
    ∃ kept, kept.Pairwise (· < ·) ∧ (∀ q, q ∈ kept ↔ d.Reach q) ∧ QuotOk d kept id ∧
      d.removeUnreachableStates ord = some (quot d kept id) := by
  obtain ⟨r, h1, h2, h3⟩ := unreachableStateIdx_spec hd
  have hmem : ∀ q, q ∈ ord r ↔ q < d.states.length ∧ ¬ d.Reach q := fun q => by rw [(hord r).mem_iff, h3]
  have hnd : (ord r).Nodup := (hord r).nodup_iff.2 (sorted_nodup h2)
  have hkept : ∀ q, q ∈ keptOf d.states.length (ord r) ↔ d.Reach q := by
    intro q
    rw [mem_keptOf, hmem]
    constructor
    · rintro ⟨h4, h5⟩; by_contra hc; exact h5 ⟨h4, hc⟩
    · intro h; exact ⟨h.lt hd, fun hc => hc.2 h⟩
  have hinit : d.Reach d.initialState := ⟨[], rfl⟩
  have hstep : ∀ q, d.Reach q → ∀ t ∈ (d.state q).transitions, d.Reach t := by
    rintro q ⟨w, hw⟩ t ht
    obtain ⟨e, he⟩ := (succ_iff hd (runE_lt hd hd.init_lt hw)).1 ht
    exact ⟨w ++ [e], by rw [runE_append, hw]; simp [runE, he]⟩
  have hok : QuotOk d (keptOf d.states.length (ord r)) id :=
    ⟨keptOf_nodup _ _, fun q hq => ((hkept q).1 hq).lt hd, (hkept _).2 hinit,
      fun q hq t ht => (hkept _).2 (hstep q ((hkept q).1 hq) t ht)⟩
  refine ⟨keptOf d.states.length (ord r), keptOf_sorted _ _, hkept, hok, ?_⟩
  rw [removeUnreachableStates, h1]
  simp only [Option.bind_eq_bind, Option.bind_some]
  rw [removeStates_eq hnd (fun i hi => ((hmem i).1 hi).1) hd.init_lt (fun hc => ((hmem _).1 hc).2 hinit)]
  · simp only [quot, id, Option.some.injEq, Dfa.mk.injEq, true_and, and_true]
    apply List.map_congr_left
    intro q hq
    have hlt := hok.lt q hq
    have := hd.init_flag q _ (getElem?_state hlt)
    congr 1
    rw [Bool.eq_iff_iff, this]; simp
  · intro q hq hqr t ht
    have hreach : d.Reach q := (hkept q).1 (mem_keptOf.2 ⟨hq, hqr⟩)
    have := hstep q hreach t ht
    exact ⟨this.lt hd, fun hc => ((hmem t).1 hc).2 this⟩

end Dfa
end Dandy
