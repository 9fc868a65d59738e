import Verif.Model.Checked
import Verif.Proofs.DfaCore
import Verif.Proofs.Minimize
/-!
# The DFA code has no panics (for C105)
-/

namespace Dandy
namespace Checked

theorem explore_eq {σ κ : Type} [DecidableEq κ] {key : σ → κ} {succ : σ → List σ} {ok : σ → Bool} {succ' : σ → Option (List σ)}
    {ok' : σ → Option Bool} (Inv : σ → Prop) (hs : ∀ s, Inv s → succ' s = some (succ s)) (hok : ∀ s, Inv s → ok' s = some (ok s))
    (hInv : ∀ s, Inv s → ∀ t ∈ succ s, Inv t) (k : Nat) (stack seen out : List σ) (h : ∀ s ∈ stack, Inv s) :
    explore key succ' ok' k stack seen out = Dandy.explore key succ ok k stack seen out := by
  have push : ∀ (ts stack seen : List σ), (∀ s ∈ ts, Inv s) → (∀ s ∈ stack, Inv s) → ∀ s ∈ (pushNew key ts (stack, seen)).1, Inv s := by
    intro ts
    induction ts with
    | nil => intro stack seen _ h; exact h
    | cons t ts ih =>
      intro stack seen h1 h2
      simp only [pushNew]
      split
      · exact ih _ _ (fun s hs => h1 s (List.mem_cons_of_mem _ hs)) h2
      · refine ih _ _ (fun s hs => h1 s (List.mem_cons_of_mem _ hs)) ?_
        intro s hs
        rcases List.mem_cons.1 hs with rfl | hs
        · exact h1 _ List.mem_cons_self
        · exact h2 s hs
  induction k generalizing stack seen out with
  | zero => rfl
  | succ k ih =>
    cases stack with
    | nil => rfl
    | cons s stack =>
      have h1 := h s List.mem_cons_self
      simp only [explore, Dandy.explore, hs s h1, hok s h1, Option.bind_eq_bind, Option.bind_some]
      split
      · exact ih _ _ _ (push _ _ _ (hInv s h1) (fun x hx => h x (List.mem_cons_of_mem _ hx)))
      · rfl

theorem takeNames_eq {κ : Type} {nameOf : κ → Str} {nameOf' : κ → Option Str} (l : List κ) (h : ∀ k ∈ l, nameOf' k = some (nameOf k)) (hm : List Str) :
    takeNames nameOf' l hm = some (Dandy.takeNames nameOf l hm) := by
  induction l generalizing hm with
  | nil => rfl
  | cons k ks ih =>
    simp only [takeNames, Dandy.takeNames, h k List.mem_cons_self, Option.bind_eq_bind, Option.bind_some]
    split
    · rfl
    · rw [ih (fun x hx => h x (List.mem_cons_of_mem _ hx))]
      rfl

theorem genNames_eq {κ : Type} {nameOf : κ → Str} {nameOf' : κ → Option Str} (l : List κ) (h : ∀ k ∈ l, nameOf' k = some (nameOf k)) (c : Nat) :
    genNames nameOf' l c = some (Dandy.genNames nameOf l c) := by
  simp only [genNames, Dandy.genNames, takeNames_eq l h, Option.bind_eq_bind, Option.bind_some]
  split <;> rfl

theorem mapM_congr {α β : Type} {f g : α → Option β} {l : List α} (h : ∀ a ∈ l, f a = g a) : l.mapM f = l.mapM g := by
  induction l with
  | nil => rfl
  | cons a l ih => rw [List.mapM_cons, List.mapM_cons, h a List.mem_cons_self, ih (fun x hx => h x (List.mem_cons_of_mem _ hx))]

theorem forall₂_right {α β : Type} {R : α → β → Prop} {as : List α} {bs : List β} (h : List.Forall₂ R as bs) : ∀ b ∈ bs, ∃ a ∈ as, R a b := by
  induction h with
  | nil => nofun
  | @cons a b as bs h _ ih =>
    intro x hx
    rcases List.mem_cons.1 hx with rfl | hx
    · exact ⟨a, List.mem_cons_self, h⟩
    · obtain ⟨y, h1, h2⟩ := ih x hx
      exact ⟨y, List.mem_cons_of_mem _ h1, h2⟩

theorem bfs_congr {f g : Nat → Option (List Nat)} {n : Nat} (h : ∀ q < n, f q = g q) (hg : ∀ q < n, ∀ l, g q = some l → ∀ t ∈ l, t < n)
    (k : Nat) (all new : List Nat) (hn : ∀ q ∈ new, q < n) : bfs f k all new = bfs g k all new := by
  have add : ∀ (ts all new : List Nat), (∀ t ∈ ts, t < n) → (∀ t ∈ new, t < n) → ∀ t ∈ (addNew ts (all, new)).2, t < n := by
    intro ts
    induction ts with
    | nil => intro all new _ h; exact h
    | cons t ts ih =>
      intro all new h1 h2
      simp only [addNew]
      split
      · exact ih _ _ (fun s hs => h1 s (List.mem_cons_of_mem _ hs)) h2
      · refine ih _ _ (fun s hs => h1 s (List.mem_cons_of_mem _ hs)) ?_
        intro s hs
        rcases List.mem_append.1 hs with hs | hs
        · exact h2 s hs
        · rw [List.mem_singleton.1 hs]
          exact h1 _ List.mem_cons_self
  induction k generalizing all new with
  | zero => rfl
  | succ k ih =>
    simp only [bfs]
    split
    · rfl
    · rw [mapM_congr (fun q hq => h q (hn q hq))]
      generalize hx : new.mapM g = x
      cases x with
      | none => rfl
      | some ls =>
        refine ih _ _ (add _ _ _ ?_ nofun)
        intro t ht
        obtain ⟨l, hl, htl⟩ := List.mem_flatten.1 ht
        obtain ⟨q, hq, hgq⟩ := forall₂_right (mapM_some_iff.1 hx) l hl
        exact hg q (hn q hq) l hgq t htl

/-! ## Evaluators -/

/-- The evaluator belongs to a valid DFA and is in one of its states. -/
def _root_.Dandy.DfaEval.Ok (ev : Dandy.DfaEval) : Prop := ev.dfa.WF ∧ ev.cur < ev.dfa.states.length

namespace DfaEval
open Dandy (DfaEval)

theorem new_ok {d : Dandy.Dfa} (h : d.WF) : (Dandy.DfaEval.new d).Ok := ⟨h, h.init_lt⟩

theorem currentState_eq {ev : DfaEval} (h : ev.Ok) : currentState ev = some ev.currentState := by
  unfold currentState Dandy.DfaEval.currentState
  split
  · rfl
  · rw [Dandy.Dfa.getElem?_state h.2]
    rfl

theorem isAccepting_eq {ev : DfaEval} (h : ev.Ok) : isAccepting ev = some ev.isAccepting := by
  unfold isAccepting Dandy.DfaEval.isAccepting
  rw [currentState_eq h]
  simp only [Option.bind_eq_bind, Option.bind_some]
  cases ev.currentState <;> rfl

theorem trans_eq {ev : DfaEval} (h : ev.Ok) {e : Str} {i : Nat} (hi : revGet ev.dfa.alphabet e = some i) :
    (ev.dfa.state ev.cur).transitions[i]? = some ((ev.dfa.state ev.cur).transitions.getD i 0) ∧
      (ev.dfa.state ev.cur).transitions.getD i 0 < ev.dfa.states.length := by
  have hm := Dandy.Dfa.state_mem h.2
  have hl : i < (ev.dfa.state ev.cur).transitions.length := by rw [h.1.row_len _ hm]; exact revGet_lt hi
  have e1 := getElem?_of_lt 0 hl
  exact ⟨e1, h.1.targets _ hm _ (List.mem_of_getElem? e1)⟩

theorem step_eq {ev : DfaEval} (h : ev.Ok) (e : Str) : step ev e = some (ev.step e) ∧ (ev.step e).1.Ok ∧ (ev.step e).1.dfa = ev.dfa := by
  unfold step Dandy.DfaEval.step
  split
  · exact ⟨rfl, h, rfl⟩
  · generalize hr : revGet ev.dfa.alphabet e = r
    cases r with
    | none => exact ⟨rfl, h, rfl⟩
    | some i =>
      obtain ⟨e1, e2⟩ := trans_eq h hr
      refine ⟨?_, ⟨h.1, e2⟩, rfl⟩
      dsimp only
      rw [Dandy.Dfa.getElem?_state h.2]
      simp only [Option.bind_eq_bind, Option.bind_some, e1]
      rw [Dandy.Dfa.getElem?_state e2]
      rfl

theorem tryForEach_eq {ev : DfaEval} (h : ev.Ok) (es : List Str) :
    tryForEach ev es = some (ev.tryForEach es) ∧ (ev.tryForEach es).1.Ok := by
  induction es generalizing ev with
  | nil => exact ⟨rfl, h⟩
  | cons e es ih =>
    obtain ⟨h1, h2, _⟩ := step_eq h e
    unfold tryForEach Dandy.DfaEval.tryForEach
    rw [h1]
    simp only [Option.bind_eq_bind, Option.bind_some]
    generalize ev.step e = r at h2
    obtain ⟨ev', x⟩ := r
    cases x with
    | none => exact ⟨rfl, h2⟩
    | some _ => exact ih h2

theorem stepMultiple_eq {ev : DfaEval} (h : ev.Ok) (es : List Str) :
    stepMultiple ev es = some (ev.stepMultiple es) ∧ (ev.stepMultiple es).1.Ok := by
  obtain ⟨h1, h2⟩ := tryForEach_eq h es
  unfold stepMultiple Dandy.DfaEval.stepMultiple
  rw [h1]
  simp only [Option.bind_eq_bind, Option.bind_some]
  generalize ev.tryForEach es = r at h2
  obtain ⟨ev', x⟩ := r
  cases x with
  | none => exact ⟨rfl, h2⟩
  | some _ =>
    refine ⟨?_, h2⟩
    dsimp only
    rw [Dandy.Dfa.getElem?_state h2.2]
    rfl

theorem stepMultiple_dfa {ev : DfaEval} (h : ev.Ok) (es : List Str) : (ev.stepMultiple es).1.dfa = ev.dfa := by
  have key : (ev.tryForEach es).1.dfa = ev.dfa := by
    induction es generalizing ev with
    | nil => rfl
    | cons e es ih =>
      obtain ⟨_, h2, h3⟩ := step_eq h e
      unfold Dandy.DfaEval.tryForEach
      generalize ev.step e = r at h2 h3
      obtain ⟨ev', x⟩ := r
      cases x with
      | none => exact h3
      | some _ => exact (ih h2).trans h3
  unfold Dandy.DfaEval.stepMultiple
  generalize ev.tryForEach es = r at key
  obtain ⟨ev', x⟩ := r
  cases x <;> exact key

theorem stepAll_eq {ev : DfaEval} (h : ev.Ok) : stepAll ev = some ev.stepAll :=
  mapM_some (fun e _ => by rw [(step_eq h e).1]; rfl)

end DfaEval

/-! ## Operations -/

namespace Dfa
open Dandy (Dfa)

theorem accepts_eq {d : Dfa} (h : d.WF) (w : List Str) : accepts d w = some (d.accepts w) := by
  obtain ⟨h1, h2⟩ := DfaEval.stepMultiple_eq (DfaEval.new_ok h) w
  unfold accepts
  rw [h1]
  exact DfaEval.isAccepting_eq h2

theorem pairSucc_eq {p : Dandy.DfaEval × Dandy.DfaEval} (h1 : p.1.Ok) (h2 : p.2.Ok) (al : List Str) :
    pairSucc al p = some (Dandy.Dfa.pairSucc al p) ∧ ∀ t ∈ Dandy.Dfa.pairSucc al p, (t.1.Ok ∧ t.2.Ok) ∧ t.1.dfa = p.1.dfa ∧ t.2.dfa = p.2.dfa := by
  refine ⟨mapM_some (fun e _ => by rw [(DfaEval.step_eq h1 e).1, (DfaEval.step_eq h2 e).1]; rfl), ?_⟩
  intro t ht
  obtain ⟨e, _, rfl⟩ := List.mem_map.1 ht
  obtain ⟨_, a, b⟩ := DfaEval.step_eq h1 e
  obtain ⟨_, a', b'⟩ := DfaEval.step_eq h2 e
  exact ⟨⟨a, a'⟩, b, b'⟩

theorem reachable_eq {d : Dfa} (h : d.WF) : reachableStateIdx d = d.reachableStateIdx := by
  refine bfs_congr (n := d.states.length) ?_ ?_ _ _ _ ?_
  · intro q hq
    rw [Dandy.Dfa.getElem?_state hq]
    rfl
  · rintro q hq l e t ht
    cases e
    exact h.targets _ (Dandy.Dfa.state_mem hq) t ht
  · intro q hq
    rw [List.mem_singleton.1 hq]
    exact h.init_lt

theorem unreachable_eq {d : Dfa} (h : d.WF) : unreachableStateIdx d = d.unreachableStateIdx := by
  unfold unreachableStateIdx Dandy.Dfa.unreachableStateIdx
  rw [reachable_eq h]
  cases d.reachableStateIdx <;> rfl

theorem equivalent_eq {d o : Dfa} (hd : d.WF) (ho : o.WF) : equivalentTo d o = d.equivalentTo o := by
  unfold equivalentTo Dandy.Dfa.equivalentTo
  split
  · rfl
  · dsimp only
    rw [explore_eq (succ := Dandy.Dfa.pairSucc d.alphabet) (ok := fun p => p.1.isAccepting == p.2.isAccepting) (fun p => p.1.Ok ∧ p.2.Ok)
      (fun p hp => (pairSucc_eq hp.1 hp.2 _).1) (fun p hp => by rw [DfaEval.isAccepting_eq hp.1, DfaEval.isAccepting_eq hp.2]; rfl)
      (fun p hp t ht => ((pairSucc_eq hp.1 hp.2 _).2 t ht).1)]
    · generalize Dandy.explore Dandy.Dfa.pairKey _ _ _ _ _ _ = r
      rcases r with _ | _ | _ <;> rfl
    · intro s hs
      rw [List.mem_singleton.1 hs]
      exact ⟨DfaEval.new_ok hd, DfaEval.new_ok ho⟩

theorem count_le {l : List Nat} {x : Nat} (h : (l.insertionSort (· ≤ ·)).Nodup) : (l.insertionSort (· ≤ ·)).countP (· < x) ≤ x := by
  rw [List.countP_eq_length_filter]
  have hn := h.filter (fun a => decide (a < x))
  exact nodup_length_le hn (fun y hy => of_decide_eq_true (List.mem_filter.1 hy).2)

theorem removeStates_eq {d : Dfa} {rm : List Nat} (h : rm.Nodup) : removeStates d rm = d.removeStates rm := by
  unfold removeStates Dandy.Dfa.removeStates binarySearch
  dsimp only
  by_cases hm : d.initialState ∈ rm.insertionSort (· ≤ ·)
  · simp only [if_pos hm]
  · have hle : (rm.insertionSort (· ≤ ·)).countP (· < d.initialState) ≤ d.initialState :=
      count_le ((List.perm_insertionSort _ rm).nodup_iff.2 h)
    simp only [if_neg hm, usub, if_pos hle]

theorem preImage_eq {d : Dfa} (h : d.WF) (a : List Nat) {c : Nat} (hc : c < d.alphabet.length) : preImage d a c = some (d.preImage a c) := by
  unfold preImage Dandy.Dfa.preImage
  have hz : d.states.zipIdx = (List.range d.states.length).map (fun i => (d.state i, i)) := by
    apply List.ext_getElem?
    intro i
    by_cases hi : i < d.states.length
    · have e := Dandy.Dfa.getElem?_state hi
      rw [List.getElem?_eq_getElem hi] at e
      simp [hi, Option.some.inj e]
    · simp [hi]
  have hm : d.states.zipIdx.mapM (fun p => do return (p.2, decide ((← p.1.transitions[c]?) ∈ a))) =
      some (d.states.zipIdx.map (fun p => (p.2, decide (p.1.transitions.getD c 0 ∈ a)))) := by
    refine mapM_some ?_
    rintro ⟨s, i⟩ hp
    have hs : s ∈ d.states := List.fst_mem_of_mem_zipIdx hp
    have hl : c < s.transitions.length := by rw [h.row_len s hs]; exact hc
    dsimp only
    rw [getElem?_of_lt 0 hl]
    rfl
  rw [hm, hz]
  simp only [Option.bind_eq_bind, Option.bind_some, List.map_map, List.filter_map]
  congr 1
  simp [Function.comp_def]

theorem hopcroftSymbols_eq {d : Dfa} (h : d.WF) (a : List Nat) (cs : List Nat) (hc : ∀ c ∈ cs, c < d.alphabet.length)
    (pw : List (List Nat) × List (List Nat)) : hopcroftSymbols d a cs pw = some (d.hopcroftSymbols a cs pw) := by
  induction cs generalizing pw with
  | nil => rfl
  | cons c cs ih =>
    simp only [hopcroftSymbols, Dandy.Dfa.hopcroftSymbols, preImage_eq h a (hc c List.mem_cons_self), Option.bind_eq_bind, Option.bind_some]
    exact ih (fun x hx => hc x (List.mem_cons_of_mem _ hx)) _

theorem hopcroftLoop_eq {d : Dfa} (h : d.WF) (k : Nat) (p w : List (List Nat)) : hopcroftLoop d k p w = d.hopcroftLoop k p w := by
  induction k generalizing p w with
  | zero => rfl
  | succ k ih =>
    simp only [hopcroftLoop, Dandy.Dfa.hopcroftLoop]
    cases w.getLast? with
    | none => rfl
    | some a =>
      dsimp only
      rw [hopcroftSymbols_eq h a _ (fun c hc => List.mem_range.1 hc)]
      exact ih _ _

theorem classes_eq {d : Dfa} (h : d.WF) : stateEquivalenceClassesIdx d = d.stateEquivalenceClassesIdx := by
  unfold stateEquivalenceClassesIdx Dandy.Dfa.stateEquivalenceClassesIdx
  have hm : (List.range d.states.length).mapM (fun i => do return (i, (← d.states[i]?).accepting)) =
      some ((List.range d.states.length).map (fun i => (i, (d.state i).accepting))) := by
    refine mapM_some ?_
    intro i hi
    rw [Dandy.Dfa.getElem?_state (List.mem_range.1 hi)]
    rfl
  rw [hm]
  simp only [Option.bind_eq_bind, Option.bind_some, List.filter_map, List.map_map]
  have e1 : ((List.range d.states.length).filter ((fun b : Nat × Bool => b.2) ∘ fun i => (i, (d.state i).accepting))).map
      ((fun b : Nat × Bool => b.1) ∘ fun i => (i, (d.state i).accepting)) = (List.range d.states.length).filter (fun i => (d.state i).accepting) := by
    simp [Function.comp_def]
  have e2 : ((List.range d.states.length).filter ((fun b : Nat × Bool => !b.2) ∘ fun i => (i, (d.state i).accepting))).map
      ((fun b : Nat × Bool => b.1) ∘ fun i => (i, (d.state i).accepting)) = (List.range d.states.length).filter (fun i => !(d.state i).accepting) := by
    simp [Function.comp_def]
  rw [e1, e2, hopcroftLoop_eq h]
  rfl

theorem merge_eq {ord ordKeys : List Nat → List Nat} (hord : ∀ l, (ord l).Perm l) (hk : ∀ l, (ordKeys l).Perm l) {d : Dfa} (h : d.WF) :
    mergeNondistinguishableStates ord ordKeys d = d.mergeNondistinguishableStates ord ordKeys := by
  obtain ⟨P, h1, hP⟩ := Dandy.Dfa.classes_spec h
  unfold mergeNondistinguishableStates Dandy.Dfa.mergeNondistinguishableStates
  rw [classes_eq h, h1]
  have hm : P.mapM (classPairs ord) = some (P.map (Dandy.Dfa.classPairs ord)) := by
    refine mapM_some ?_
    intro B hB
    obtain ⟨r, rest, e, _⟩ := Dandy.Dfa.ord_class hord hP hB
    unfold classPairs Dandy.Dfa.classPairs
    rw [e]
  simp only [Option.bind_eq_bind, Option.bind_some, hm]
  have hf : (P.map (Dandy.Dfa.classPairs ord)).flatten = P.flatMap (Dandy.Dfa.classPairs ord) := rfl
  rw [hf]
  generalize hmap : P.flatMap (Dandy.Dfa.classPairs ord) = mapper
  have hn : (ordKeys (mapper.map (·.1))).Nodup := by
    refine (hk _).nodup_iff.2 ?_
    rw [← hmap]
    exact Dandy.Dfa.keys_nodup hord hP
  have hlt : ∀ i v, mapper.lookup i = some v → v < d.states.length := by
    intro i v hv
    have hv := Dandy.Dfa.mem_of_lookup hv
    rw [← hmap] at hv
    obtain ⟨B, hB, hin⟩ := List.mem_flatMap.1 hv
    obtain ⟨r, rest, e, _, hall⟩ := Dandy.Dfa.ord_class hord hP hB
    unfold Dandy.Dfa.classPairs at hin
    rw [e] at hin
    obtain ⟨old, _, e2⟩ := List.mem_map.1 hin
    cases e2
    exact Dandy.Dfa.class_lt hord hP hB ((hall _).2 (Or.inl rfl))
  cases hx : mapper.lookup d.initialState with
  | none =>
    simp only [Option.bind_some]
    exact removeStates_eq hn
  | some v =>
    have hv : v < (d.remapTransitions (fun i => mapper.lookup i)).states.length := by
      have : (d.remapTransitions (fun i => mapper.lookup i)).states.length = d.states.length := List.length_map ..
      rw [this]
      exact hlt _ _ hx
    generalize d.remapTransitions (fun i => mapper.lookup i) = d1 at hv
    simp only [List.getElem?_eq_getElem hv, Option.bind_some]
    have hset : d1.states.set v { d1.states[v] with initial := true } = Dandy.Dfa.setInitial d1.states v := by
      unfold Dandy.Dfa.setInitial
      apply List.ext_getElem?
      intro i
      rw [List.getElem?_set, List.getElem?_modify]
      split
      · rename_i e
        subst e
        simp [hv]
      · simp
    rw [hset]
    exact removeStates_eq hn

theorem removeUnreachable_eq {ord : List Nat → List Nat} (hord : ∀ l, (ord l).Perm l) {d : Dfa} (h : d.WF) :
    removeUnreachableStates ord d = d.removeUnreachableStates ord := by
  obtain ⟨r, h1, h2, _⟩ := Dandy.Dfa.unreachableStateIdx_spec h
  unfold removeUnreachableStates Dandy.Dfa.removeUnreachableStates
  rw [unreachable_eq h, h1]
  exact removeStates_eq ((hord _).nodup_iff.2 (sorted_nodup h2))

theorem minimize_eq {ordU ord ordKeys : List Nat → List Nat} (hU : ∀ l, (ordU l).Perm l) (hord : ∀ l, (ord l).Perm l) (hk : ∀ l, (ordKeys l).Perm l)
    {d : Dfa} (h : d.WF) : minimize ordU ord ordKeys d = d.minimize ordU ord ordKeys := by
  unfold minimize Dandy.Dfa.minimize
  rw [removeUnreachable_eq hU h]
  obtain ⟨kept, _, _, h2, h1⟩ := Dandy.Dfa.removeUnreachableStates_eq hU h
  rw [h1]
  exact merge_eq hord hk (Dandy.Dfa.quot_wf h h2)

theorem states_eq {d : Dfa} {l : List Nat} (hl : ∀ i ∈ l, i < d.states.length) : l.mapM (fun i => d.states[i]?) = some (l.map d.state) :=
  mapM_some (fun i hi => Dandy.Dfa.getElem?_state (hl i hi))

theorem explore_inv {σ κ : Type} [DecidableEq κ] {key : σ → κ} {succ : σ → List σ} {ok : σ → Bool} (Inv : σ → Prop)
    (hInv : ∀ s, Inv s → ∀ t ∈ succ s, Inv t) (k : Nat) (stack seen out : List σ) (h : ∀ s ∈ stack, Inv s) (h' : ∀ s ∈ seen, Inv s)
    (h'' : ∀ s ∈ out, Inv s) {r : List σ × List σ} (hr : Dandy.explore key succ ok k stack seen out = some (some r)) :
    (∀ s ∈ r.1, Inv s) ∧ ∀ s ∈ r.2, Inv s := by
  have push : ∀ (ts stack seen : List σ), (∀ s ∈ ts, Inv s) → (∀ s ∈ stack, Inv s) → (∀ s ∈ seen, Inv s) →
      (∀ s ∈ (pushNew key ts (stack, seen)).1, Inv s) ∧ ∀ s ∈ (pushNew key ts (stack, seen)).2, Inv s := by
    intro ts
    induction ts with
    | nil => intro stack seen _ h h'; exact ⟨h, h'⟩
    | cons t ts ih =>
      intro stack seen h1 h2 h3
      have ht := h1 t List.mem_cons_self
      have h1' := fun s hs => h1 s (List.mem_cons_of_mem t hs)
      simp only [pushNew]
      split
      · exact ih _ _ h1' h2 h3
      · refine ih _ _ h1' ?_ ?_
        · intro s hs
          rcases List.mem_cons.1 hs with rfl | hs
          · exact ht
          · exact h2 s hs
        · intro s hs
          rcases List.mem_append.1 hs with hs | hs
          · exact h3 s hs
          · rw [List.mem_singleton.1 hs]
            exact ht
  induction k generalizing stack seen out with
  | zero => cases hr
  | succ k ih =>
    cases stack with
    | nil => cases hr; exact ⟨h'', h'⟩
    | cons s stack =>
      have h1 := h s List.mem_cons_self
      simp only [Dandy.explore] at hr
      split at hr
      · obtain ⟨p1, p2⟩ := push _ stack seen (hInv s h1) (fun x hx => h x (List.mem_cons_of_mem _ hx)) h'
        refine ih _ _ _ p1 p2 ?_ hr
        intro x hx
        rcases List.mem_append.1 hx with hx | hx
        · exact h'' x hx
        · rw [List.mem_singleton.1 hx]
          exact h1
      · cases hr

theorem product_eq {ord : List (Nat × Nat) → List (Nat × Nat)} (hord : ∀ l, (ord l).Perm l) {d o : Dfa} (hd : d.WF) (ho : o.WF)
    (comb : DfaState → DfaState → Bool) : product ord d o comb = d.product ord o comb := by
  unfold product Dandy.Dfa.product
  split
  · rfl
  · have hinit : ∀ s ∈ [(Dandy.DfaEval.new d, Dandy.DfaEval.new o)], (s.1.Ok ∧ s.2.Ok) ∧ s.1.dfa = d ∧ s.2.dfa = o := by
      intro s hs
      rw [List.mem_singleton.1 hs]
      exact ⟨⟨DfaEval.new_ok hd, DfaEval.new_ok ho⟩, rfl, rfl⟩
    have hInv : ∀ p : Dandy.DfaEval × Dandy.DfaEval, ((p.1.Ok ∧ p.2.Ok) ∧ p.1.dfa = d ∧ p.2.dfa = o) →
        ∀ t ∈ Dandy.Dfa.pairSucc d.alphabet p, (t.1.Ok ∧ t.2.Ok) ∧ t.1.dfa = d ∧ t.2.dfa = o := by
      intro p hp t ht
      obtain ⟨a, b, c⟩ := (pairSucc_eq hp.1.1 hp.1.2 _).2 t ht
      exact ⟨a, b.trans hp.2.1, c.trans hp.2.2⟩
    dsimp only
    rw [explore_eq (succ := Dandy.Dfa.pairSucc d.alphabet) (ok := fun _ => true) (fun p => (p.1.Ok ∧ p.2.Ok) ∧ p.1.dfa = d ∧ p.2.dfa = o)
      (fun p hp => (pairSucc_eq hp.1.1 hp.1.2 _).1) (fun _ _ => rfl) hInv _ _ _ _ hinit]
    generalize hr : Dandy.explore Dandy.Dfa.pairKey _ _ _ _ _ _ = r
    rcases r with _ | _ | ⟨out, seen⟩
    · rfl
    · rfl
    · obtain ⟨ho1, ho2⟩ := explore_inv _ hInv _ _ _ _ hinit hinit (fun s hs => absurd hs List.not_mem_nil) hr
      have hsd : out.mapM (fun p => do
          let s1 ← ← DfaEval.currentState p.1
          let s2 ← ← DfaEval.currentState p.2
          return (Dandy.Dfa.pairKey p, comb s1 s2, (← pairSucc d.alphabet p).map Dandy.Dfa.pairKey)) =
        out.mapM (fun p => do
          let s1 ← p.1.currentState
          let s2 ← p.2.currentState
          pure (Dandy.Dfa.pairKey p, comb s1 s2, (Dandy.Dfa.pairSucc d.alphabet p).map Dandy.Dfa.pairKey)) := by
        refine mapM_congr ?_
        intro p hp
        obtain ⟨⟨a, b⟩, _⟩ := ho1 p hp
        rw [DfaEval.currentState_eq a, DfaEval.currentState_eq b, (pairSucc_eq a b _).1]
        rfl
      have hnames : ∀ c, genNames (fun k : Nat × Nat => do return Dandy.Dfa.pairName (← d.states[k.1]?).name (← o.states[k.2]?).name)
          (ord (seen.map Dandy.Dfa.pairKey)) c = some (Dandy.genNames (fun k : Nat × Nat => Dandy.Dfa.pairName (d.state k.1).name (o.state k.2).name)
          (ord (seen.map Dandy.Dfa.pairKey)) c) := by
        intro c
        refine genNames_eq _ ?_ c
        intro k hk
        obtain ⟨p, hp, rfl⟩ := List.mem_map.1 ((hord _).mem_iff.1 hk)
        obtain ⟨⟨a, b⟩, e1, e2⟩ := ho2 p hp
        have a' := a.2
        have b' := b.2
        rw [e1] at a'
        rw [e2] at b'
        dsimp only [Dandy.Dfa.pairKey, Dandy.DfaEval.currentStateIdx]
        rw [Dandy.Dfa.getElem?_state a', Dandy.Dfa.getElem?_state b']
        rfl
      simp only [Option.bind_eq_bind, Option.bind_some]
      simp only [Option.bind_eq_bind] at hsd hnames
      rw [hsd]
      refine congrArg _ (funext fun sd => ?_)
      rw [hnames]
      rfl

end Dfa

end Checked
end Dandy
