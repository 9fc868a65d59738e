import Verif.Proofs.NfaCore
import Verif.Proofs.Remove
/-! # Restricting an NFA to some of its states -/

namespace Dandy
namespace Nfa

/-- The NFA with only the states in `kept`, renumbered. -/
def restr (n : Nfa) (kept : List Nat) : Nfa :=
  { n with
    states := kept.map (fun q =>
      { n.state q with
        transitions := (n.state q).transitions.map (fun ts => ts.map (fun t => kept.idxOf t))
        epsilonTransitions := (n.state q).epsilonTransitions.map (fun t => kept.idxOf t) })
    initialState := kept.idxOf n.initialState }

/-- `kept` is closed under the moves of `n` and contains the initial state. -/
structure RestrOk (n : Nfa) (kept : List Nat) : Prop where
  nodup : kept.Nodup
  lt : ∀ q ∈ kept, q < n.states.length
  init : n.initialState ∈ kept
  ep : ∀ q ∈ kept, ∀ t ∈ n.ep q, t ∈ kept
  tr : ∀ q ∈ kept, ∀ i, ∀ t ∈ n.tr q i, t ∈ kept

variable {n : Nfa} {kept : List Nat}

theorem restr_state {q : Nat} (hq : q ∈ kept) : (n.restr kept).state (kept.idxOf q) =
      { n.state q with
        transitions := (n.state q).transitions.map (fun ts => ts.map (fun t => kept.idxOf t))
        epsilonTransitions := (n.state q).epsilonTransitions.map (fun t => kept.idxOf t) } := by
  apply state_of_getElem?
  simp only [restr, List.getElem?_map, List.getElem?_idxOf hq, Option.map_some]

theorem restr_ep {q : Nat} (hq : q ∈ kept) : (n.restr kept).ep (kept.idxOf q) = (n.ep q).map (fun t => kept.idxOf t) := by
  unfold ep; rw [restr_state hq]

theorem restr_tr {q i : Nat} (hq : q ∈ kept) : (n.restr kept).tr (kept.idxOf q) i = (n.tr q i).map (fun t => kept.idxOf t) := by
  unfold tr; rw [restr_state hq]
  by_cases h : i < (n.state q).transitions.length
  · simp [h]
  · simp [h]

theorem restr_path_iff (h : RestrOk n kept) {q : Nat} (hq : q ∈ kept) {w : Word} {x : Nat} :
    (n.restr kept).Path (kept.idxOf q) w x ↔ ∃ r ∈ kept, x = kept.idxOf r ∧ n.Path q w r := by
  constructor
  · intro hp
    obtain ⟨u, h1, h2, h3⟩ := path_sim (n := n.restr kept) (o := n) (fun a b => b ∈ kept ∧ a = kept.idxOf b)
      (by
        rintro _ r t ⟨hr, rfl⟩ ht
        rw [restr_ep hr] at ht
        obtain ⟨u, hu, rfl⟩ := List.mem_map.1 ht
        exact ⟨u, .single hu, h.ep r hr u hu, rfl⟩)
      (by
        rintro _ r e t ⟨hr, rfl⟩ ⟨i, hi, ht⟩
        rw [restr_tr hr] at ht
        obtain ⟨u, hu, rfl⟩ := List.mem_map.1 ht
        exact ⟨u, step_path ⟨i, hi, hu⟩, h.tr r hr i u hu, rfl⟩) hp q ⟨hq, rfl⟩
    exact ⟨u, h2, h3, h1⟩
  · rintro ⟨r, hr, rfl, hp⟩
    obtain ⟨u, h1, h2, rfl⟩ := path_sim (n := n) (o := n.restr kept) (fun b a => b ∈ kept ∧ a = kept.idxOf b)
      (by
        rintro q _ t ⟨hr, rfl⟩ ht
        exact ⟨kept.idxOf t, .single (by rw [restr_ep hr]; exact List.mem_map.2 ⟨t, ht, rfl⟩), h.ep q hr t ht, rfl⟩)
      (by
        rintro q _ e t ⟨hr, rfl⟩ ⟨i, hi, ht⟩
        exact ⟨kept.idxOf t, step_path ⟨i, hi, by rw [restr_tr hr]; exact List.mem_map.2 ⟨t, ht, rfl⟩⟩, h.tr q hr i t ht, rfl⟩)
      hp _ ⟨hq, rfl⟩
    exact h1

theorem restr_acc {q : Nat} (hq : q ∈ kept) : (n.restr kept).Acc (kept.idxOf q) ↔ n.Acc q := by
  rw [acc_iff, acc_iff, restr_state hq]

theorem restr_lang (h : RestrOk n kept) (w : Word) : (n.restr kept).Lang w ↔ n.Lang w := by
  have hinit : (n.restr kept).initialState = kept.idxOf n.initialState := rfl
  unfold Lang
  rw [hinit]
  constructor
  · rintro ⟨x, h1, h2⟩
    obtain ⟨r, hr, rfl, h3⟩ := (restr_path_iff h h.init).1 h1
    exact ⟨r, h3, (restr_acc hr).1 h2⟩
  · rintro ⟨r, h1, h2⟩
    have hr : r ∈ kept := by
      have hcl : ∀ {p w r}, n.Path p w r → p ∈ kept → r ∈ kept := by
        intro p w r hp
        induction hp with
        | nil => exact id
        | eps h1 h2 _ ih => intro hk; exact ih (h.ep _ hk _ (mem_ep.2 ⟨_, h1, h2⟩))
        | step h1 h2 h3 h4 _ ih => intro hk; exact ih (h.tr _ hk _ _ (mem_tr.2 ⟨_, _, h1, h3, h4⟩))
      exact hcl h1 h.init
    exact ⟨kept.idxOf r, (restr_path_iff h h.init).2 ⟨r, hr, rfl, h1⟩, (restr_acc hr).2 h2⟩

theorem restr_wf (h : RestrOk n kept) (ha : n.alphabet.Nodup) (hnames : (kept.map (fun q => (n.state q).name)).Nodup)
    (hrow : ∀ q ∈ kept, (n.state q).transitions.length = n.alphabet.length)
    (hflag : ∀ q ∈ kept, ((n.state q).initial = true ↔ q = n.initialState)) : (n.restr kept).WF := by
  have hlen : (n.restr kept).states.length = kept.length := by simp [restr]
  refine ⟨ha, ?_, ?_, ?_, ?_, ?_, ?_⟩
  · simpa [restr, Function.comp_def] using hnames
  · intro s hs
    obtain ⟨q, hq, rfl⟩ := List.mem_map.1 hs
    simpa [restr] using hrow q hq
  · intro s hs ts hts t ht
    obtain ⟨q, hq, rfl⟩ := List.mem_map.1 hs
    simp only [List.mem_map] at hts
    obtain ⟨us, hus, rfl⟩ := hts
    obtain ⟨u, hu, rfl⟩ := List.mem_map.1 ht
    rw [hlen]
    obtain ⟨i, hi⟩ := List.getElem?_of_mem hus
    exact List.idxOf_lt_length_of_mem (h.tr q hq i u (by unfold tr; rw [getD_eq_of_getElem? hi]; exact hu))
  · intro s hs t ht
    obtain ⟨q, hq, rfl⟩ := List.mem_map.1 hs
    obtain ⟨u, hu, rfl⟩ := List.mem_map.1 ht
    rw [hlen]
    exact List.idxOf_lt_length_of_mem (h.ep q hq u hu)
  · rw [hlen]; exact List.idxOf_lt_length_of_mem h.init
  · intro i s hs
    simp only [restr, List.getElem?_map, Option.map_eq_some_iff] at hs
    obtain ⟨q, hq, rfl⟩ := hs
    have hqm := List.mem_of_getElem? hq
    simp only [restr]
    rw [hflag q hqm]
    constructor
    · rintro rfl
      exact (List.getElem?_inj (lt_of_getElem? hq) h.nodup).1 (hq.trans (List.getElem?_idxOf hqm).symm)
    · rintro rfl
      have := List.getElem?_idxOf h.init
      rw [hq] at this; exact Option.some.inj this

theorem names_nodup_of_wf (hn : n.WF) (h1 : kept.Nodup) (h2 : ∀ q ∈ kept, q < n.states.length) :
    (kept.map (fun q => (n.state q).name)).Nodup := by
  rw [List.nodup_map_iff_inj_on h1]
  intro x hx y hy hxy
  have e1 := getElem?_state (h2 x hx)
  have e2 := getElem?_state (h2 y hy)
  have m1 : (n.states.map (·.name))[x]? = some (n.state x).name := by simp [e1]
  have m2 : (n.states.map (·.name))[y]? = some (n.state x).name := by simp [e2, hxy]
  exact (List.getElem?_inj (by simpa using h2 x hx) hn.names_nodup).1 (m1.trans m2.symm)

theorem restr_wf' (hn : n.WF) (h : RestrOk n kept) : (n.restr kept).WF :=
  restr_wf h hn.alphabet_nodup (names_nodup_of_wf hn h.nodup h.lt)
    (fun q hq => hn.row_len _ (state_mem (h.lt q hq)))
    (fun q hq => hn.init_flag q _ (getElem?_state (h.lt q hq)))

theorem removeStates_restr {rm : List Nat} (hnd : rm.Nodup) (hlt : ∀ i ∈ rm, i < n.states.length)
    (h : RestrOk n (keptOf n.states.length rm)) : n.removeStates rm = some (n.restr (keptOf n.states.length rm)) := by
  have hi := mem_keptOf.1 h.init
  rw [removeStates_eq hnd hlt hi.1 hi.2 ?_ ?_]
  · rfl
  · intro q hq hqr ts hts t ht
    obtain ⟨i, hi⟩ := List.getElem?_of_mem hts
    exact mem_keptOf.1 (h.tr q (mem_keptOf.2 ⟨hq, hqr⟩) i t (by unfold tr; rw [getD_eq_of_getElem? hi]; exact ht))
  · intro q hq hqr t ht
    exact mem_keptOf.1 (h.ep q (mem_keptOf.2 ⟨hq, hqr⟩) t ht)

theorem removeUnreachableStates_eq {ord : List Nat → List Nat} (hord : ∀ l, (ord l).Perm l) (hn : n.WF) :
    ∃ kept, kept.Pairwise (· < ·) ∧ (∀ q, q ∈ kept ↔ n.Reach q) ∧ RestrOk n kept ∧
      n.removeUnreachableStates ord = some (n.restr kept) := by
  obtain ⟨r, h1, h2, h3⟩ := unreachableStateIdx_spec hn
  have hmem : ∀ q, q ∈ ord r ↔ q < n.states.length ∧ ¬ n.Reach q := fun q => by rw [(hord r).mem_iff, h3]
  have hnd : (ord r).Nodup := (hord r).nodup_iff.2 (sorted_nodup h2)
  have hkept : ∀ q, q ∈ keptOf n.states.length (ord r) ↔ n.Reach q := by
    intro q
    rw [mem_keptOf, hmem]
    constructor
    · rintro ⟨h4, h5⟩; by_contra hc; exact h5 ⟨h4, hc⟩
    · intro h; exact ⟨h.lt hn, fun hc => hc.2 h⟩
  have hok : RestrOk n (keptOf n.states.length (ord r)) := by
    refine ⟨keptOf_nodup _ _, fun q hq => (mem_keptOf.1 hq).1, (hkept _).2 ⟨[], .nil _⟩, ?_, ?_⟩
    · intro q hq t ht
      obtain ⟨w, hw⟩ := (hkept q).1 hq
      exact (hkept t).2 ⟨w ++ [], path_append.2 ⟨q, hw, path_nil_iff.2 (.single ht)⟩⟩
    · intro q hq i t ht
      obtain ⟨w, hw⟩ := (hkept q).1 hq
      obtain ⟨e, he⟩ := tr_step hn ht
      exact (hkept t).2 ⟨w ++ [e], path_append.2 ⟨q, hw, step_path he⟩⟩
  refine ⟨_, keptOf_sorted _ _, hkept, hok, ?_⟩
  unfold removeUnreachableStates
  rw [h1]
  exact removeStates_restr hnd (fun i hi => ((hmem i).1 hi).1) hok

end Nfa
end Dandy
