import Verif.Proofs.CheckedNfa
import Verif.Proofs.Words
/-!
# The word iterators have no panics besides the `unimplemented!` (for C105)
-/

namespace Dandy
namespace Checked

theorem foldlM_some {α β : Type} {f : β → α → Option β} {g : β → α → β} (P : β → Prop) {l : List α}
    (h : ∀ b, P b → ∀ a ∈ l, f b a = some (g b a) ∧ P (g b a)) {b : β} (hb : P b) : l.foldlM f b = some (l.foldl g b) ∧ P (l.foldl g b) := by
  induction l generalizing b with
  | nil => exact ⟨rfl, hb⟩
  | cons a l ih =>
    obtain ⟨h1, h2⟩ := h b hb a List.mem_cons_self
    rw [List.foldlM_cons, h1, List.foldl_cons]
    exact ih (fun b hb a ha => h b hb a (List.mem_cons_of_mem _ ha)) h2

/-- The matrix has `N` rows of length `N`. -/
def Dim (N : Nat) (m : BMat) : Prop := m.length = N ∧ ∀ r ∈ m, r.length = N

theorem matGet_eq {N : Nat} {m : BMat} (h : Dim N m) {i j : Nat} (hi : i < N) (hj : j < N) : matGet m i j = some (m.get i j) := by
  have e := getElem?_of_lt [] (l := m) (i := i) (by rw [h.1]; exact hi)
  unfold matGet BMat.get
  rw [e]
  exact getElem?_of_lt false (by rw [h.2 _ (List.mem_of_getElem? e)]; exact hj)

theorem dim_fromFn (N : Nat) (f : Nat → Nat → Bool) : Dim N (BMat.fromFn N f) := by
  refine ⟨by simp [BMat.fromFn], ?_⟩
  intro r hr
  obtain ⟨i, _, rfl⟩ := List.mem_map.1 hr
  simp

theorem fromFn_eq {N : Nat} {f : Nat → Nat → Option Bool} {g : Nat → Nat → Bool} (h : ∀ i < N, ∀ j < N, f i j = some (g i j)) :
    (List.range N).mapM (fun i => (List.range N).mapM (f i)) = some (BMat.fromFn N g) :=
  mapM_some (fun i hi => mapM_some (fun j hj => h i (List.mem_range.1 hi) j (List.mem_range.1 hj)))

theorem matMul_eq {N : Nat} {a b : BMat} (ha : Dim N a) (hb : Dim N b) : matMul N a b = some (BMat.mul N a b) :=
  fromFn_eq (fun i hi j hj => (foldlM_some (fun _ => True) (fun acc _ k hk =>
    ⟨by rw [matGet_eq ha hi (List.mem_range.1 hk), matGet_eq hb (List.mem_range.1 hk) hj]; rfl, trivial⟩) trivial).1)

namespace WordIter
open Dandy (WordIter)

theorem adjacency_eq {n : Dandy.Nfa} (he : n.hasEpsilonMoves = false) : adjacency n = some (Dandy.WordIter.adjacency n) := by
  refine fromFn_eq ?_
  intro i hi j hj
  rw [he]
  unfold reachableInOneStep Dandy.WordIter.reachableInOneStep
  rw [Dandy.Nfa.getElem?_state hi]
  rfl

theorem reachableInOneStep_eq {n : Dandy.Nfa} (hn : n.WF) {q : Nat} (hq : q < n.states.length) (r : Nat) (eps : Bool) :
    reachableInOneStep n q r eps = Dandy.WordIter.reachableInOneStep n q r eps := by
  unfold reachableInOneStep Dandy.WordIter.reachableInOneStep
  cases eps with
  | false =>
    rw [Dandy.Nfa.getElem?_state hq]
    rfl
  | true =>
    obtain ⟨cl, h1, _, h3⟩ := Dandy.Nfa.closure_spec hn hq
    simp only [if_true, Nfa.closure_eq hn, h1, Option.bind_eq_bind, Option.bind_some]
    rw [mapM_congr (g := fun mid => (n.state mid).transitions.flatten.mapM (fun d => (n.closure d).bind fun c => some (decide (r ∈ c)))) (fun mid hm => by
      rw [Dandy.Nfa.getElem?_state (Dandy.Nfa.EpsR.lt hn hq ((h3 mid).1 hm))]
      rfl)]
    rfl

/-- Invariant of the iterator: matrices, final states, sets on the stack and the last word fit the automaton. -/
structure Ok (n : Dandy.Nfa) (it : WordIter) : Prop where
  wf : n.WF
  nfa : it.nfa = n
  two : 2 ≤ it.adj.length
  adj : ∀ m ∈ it.adj, Dim n.states.length m
  finals : ∀ f ∈ it.finals, f < n.states.length
  stack : ∀ S ∈ it.stack, ∀ q ∈ S, q < n.states.length
  last : ∀ w, it.last = some w → ∀ c ∈ w, c < n.alphabet.length

theorem new_eq {n : Dandy.Nfa} (hn : n.WF) : new n = Dandy.WordIter.new n ∧ ∀ it, Dandy.WordIter.new n = some it → Ok n it := by
  unfold new Dandy.WordIter.new
  cases he : n.hasEpsilonMoves with
  | true => exact ⟨rfl, nofun⟩
  | false =>
    have hz : (n.states.zipIdx.filter (fun p => p.1.accepting)).map (·.2) = (List.range n.states.length).filter (fun i => (n.state i).accepting) := by
      have hz : n.states.zipIdx = (List.range n.states.length).map (fun i => (n.state i, i)) := by
        apply List.ext_getElem?
        intro i
        by_cases hi : i < n.states.length
        · have e := Dandy.Nfa.getElem?_state hi
          rw [List.getElem?_eq_getElem hi] at e
          simp [hi, Option.some.inj e]
        · simp [hi]
      rw [hz, List.filter_map, List.map_map]
      simp [Function.comp_def]
    refine ⟨?_, ?_⟩
    · simp only [Bool.false_eq_true, if_false, adjacency_eq he, hz]
      rfl
    · intro it h
      cases h
      refine ⟨hn, rfl, Nat.le_refl _, ?_, ?_, nofun, nofun⟩
      · intro m hm
        rcases List.mem_cons.1 hm with rfl | hm
        · exact dim_fromFn _ _
        · rw [List.mem_singleton.1 hm]
          exact dim_fromFn _ _
      · intro f hf
        exact List.mem_range.1 (List.mem_filter.1 hf).1

theorem generateUpTo_eq {N : Nat} {adj : List BMat} (h2 : 2 ≤ adj.length) (h : ∀ m ∈ adj, Dim N m) (k : Nat) :
    generateUpTo N adj k = some (Dandy.WordIter.generateUpTo N adj k) ∧ 2 ≤ (Dandy.WordIter.generateUpTo N adj k).length ∧
      ∀ m ∈ Dandy.WordIter.generateUpTo N adj k, Dim N m := by
  refine foldlM_some (fun adj : List BMat => 2 ≤ adj.length ∧ ∀ m ∈ adj, Dim N m) ?_ ⟨h2, h⟩
  rintro adj ⟨h2, h⟩ _ _
  have e1 := getElem?_of_lt [] (l := adj) (i := 1) (by omega)
  have hne : adj ≠ [] := by
    rintro rfl
    simp at h2
  have e2 : adj.getLast? = some (adj.getLastD []) := by
    rw [List.getLast?_eq_some_getLast hne, List.getLastD_eq_getLast?, List.getLast?_eq_some_getLast hne]
    rfl
  rw [e1, e2]
  have d1 := h _ (List.mem_of_getElem? e1)
  have d2 := h _ (List.mem_of_getLast? e2)
  simp only [Option.bind_eq_bind, Option.bind_some, matMul_eq d1 d2]
  refine ⟨rfl, ?_, ?_⟩
  · rw [List.length_append]
    omega
  · intro m hm
    rcases List.mem_append.1 hm with hm | hm
    · exact h m hm
    · rw [List.mem_singleton.1 hm]
      exact dim_fromFn _ _

theorem targets_eq {n : Dandy.Nfa} (hn : n.WF) {u a : Nat} (hu : u < n.states.length) (ha : a < n.alphabet.length) :
    targets n a u = some ((n.state u).transitions.getD a []) := by
  unfold targets
  rw [Dandy.Nfa.getElem?_state hu]
  exact getElem?_of_lt [] (by rw [hn.row_len _ (Dandy.Nfa.state_mem hu)]; exact ha)

theorem mapM_any {α : Type} {l : List α} {f : α → Option Bool} {g : α → Bool} (h : ∀ a ∈ l, f a = some (g a)) :
    (l.mapM f).map (fun bs => bs.any id) = some (l.any g) := by
  rw [mapM_some h]
  simp [List.any_map]

theorem canContinue_eq {n : Dandy.Nfa} {it : WordIter} (h : Ok n it) {matrix : BMat} (hm : Dim n.states.length matrix) {top : List Nat}
    (ht : ∀ q ∈ top, q < n.states.length) {a : Nat} (ha : a < n.alphabet.length) :
    canContinue it matrix top a = some (top.any (fun u => it.finals.any (fun f => ((it.nfa.state u).transitions.getD a []).any (fun v => matrix.get v f)))) := by
  unfold canContinue
  rw [mapM_some (g := fun u => it.finals.map (fun f => ((it.nfa.state u).transitions.getD a []).any (fun v => matrix.get v f))) (fun u hu => ?_)]
  · simp only [Option.bind_eq_bind, Option.bind_some, List.any_map, Function.comp_def, id]
    rfl
  · refine mapM_some ?_
    intro f hf
    rw [h.nfa, targets_eq h.wf (ht u hu) ha]
    simp only [Option.bind_eq_bind, Option.bind_some]
    rw [mapM_some (l := (n.state u).transitions.getD a []) (g := fun v => matrix.get v f)
      (fun v hv => matGet_eq hm (Dandy.Nfa.tr_lt (q := u) (i := a) h.wf hv) (h.finals f hf))]
    simp only [Option.bind_some, List.any_map]
    rfl

theorem findM_eq {p : Nat → Option Bool} {q : Nat → Bool} {l : List Nat} (h : ∀ x ∈ l, p x = some (q x)) : findM p l = some (l.find? q) := by
  induction l with
  | nil => rfl
  | cons x l ih =>
    rw [findM, h x List.mem_cons_self, List.find?_cons]
    simp only [Option.bind_eq_bind, Option.bind_some]
    cases q x with
    | true => rfl
    | false => exact ih (fun y hy => h y (List.mem_cons_of_mem _ hy))

theorem filter_pairs {l : List Nat} {q : Nat → Bool} : ((l.map (fun v => (v, q v))).filter (·.2)).map (·.1) = l.filter q := by
  rw [List.filter_map, List.map_map]
  simp [Function.comp_def]

theorem retain_eq {n : Dandy.Nfa} {it : WordIter} (h : Ok n it) {matrix : BMat} (hm : Dim n.states.length matrix) {l : List Nat}
    (hl : ∀ q ∈ l, q < n.states.length) : retain it matrix l = some (l.filter (fun v => it.finals.any (fun f => matrix.get v f))) := by
  unfold retain
  rw [mapM_some (g := fun v => (v, it.finals.any (fun f => matrix.get v f))) (fun v hv => by
    rw [mapM_some (g := fun f => matrix.get v f) (fun f hf => matGet_eq hm (hl v hv) (h.finals f hf))]
    simp only [Option.bind_eq_bind, Option.bind_some, List.any_map]
    rfl)]
  simp only [Option.bind_eq_bind, Option.bind_some, filter_pairs]
  rfl

theorem fold_eq {n : Dandy.Nfa} (hn : n.WF) {top : List Nat} (ht : ∀ q ∈ top, q < n.states.length) {a : Nat} (ha : a < n.alphabet.length) :
    (top.mapM (targets n a)).map (fun ls => ls.foldl sextend []) = some (top.foldl (fun set idx => sextend set ((n.state idx).transitions.getD a [])) []) := by
  rw [mapM_some (g := fun u => (n.state u).transitions.getD a []) (fun u hu => targets_eq hn (ht u hu) ha)]
  simp [List.foldl_map]

theorem find_lt {n a : Nat} {q : Nat → Bool} (h : (List.range n).find? q = some a) : a < n :=
  List.mem_range.1 (List.mem_of_find?_eq_some h)

theorem minLoop_eq {n : Dandy.Nfa} {it : WordIter} (h : Ok n it) (k m i : Nat) (hk : k = i + m) (top : List Nat) (stack : List (List Nat))
    (ht : ∀ q ∈ top, q < n.states.length) (hs : ∀ S ∈ stack, ∀ q ∈ S, q < n.states.length) :
    minLoop it k m i top stack = Dandy.WordIter.minLoop it m top stack ∧ ∀ r, Dandy.WordIter.minLoop it m top stack = some r →
      (∀ c ∈ r.1, c < n.alphabet.length) ∧ ∀ S ∈ r.2, ∀ q ∈ S, q < n.states.length := by
  induction m generalizing i top stack with
  | zero => exact ⟨rfl, fun r hr => by cases hr; exact ⟨nofun, hs⟩⟩
  | succ m ih =>
    subst hk
    have u1 : usub (i + (m + 1)) i = some (m + 1) := by rw [usub, if_pos (by omega)]; congr 1; omega
    have u2 : usub (m + 1) 1 = some m := by rw [usub, if_pos (by omega)]; congr 1
    have u3 : usub (i + (m + 1)) 1 = some (i + m) := by rw [usub, if_pos (by omega)]; congr 1
    simp only [minLoop, Dandy.WordIter.minLoop, u1, u2, u3, Option.bind_eq_bind, Option.bind_some]
    cases hmat : it.adj[m]? with
    | none => exact ⟨rfl, nofun⟩
    | some matrix =>
      have hm := h.adj _ (List.mem_of_getElem? hmat)
      simp only [Option.bind_some]
      rw [findM_eq (q := fun a => top.any (fun u => it.finals.any (fun f => ((it.nfa.state u).transitions.getD a []).any (fun v => matrix.get v f))))
        (fun x hx => canContinue_eq h hm ht (by rw [h.nfa] at hx; exact List.mem_range.1 hx))]
      simp only [Option.bind_some]
      cases hf : (List.range it.nfa.alphabet.length).find? _ with
      | none => exact ⟨rfl, nofun⟩
      | some a =>
        have ha := find_lt hf
        rw [h.nfa] at ha
        simp only [Option.bind_some]
        by_cases hm0 : m = 0
        · subst hm0
          simp only [Nat.add_zero, if_true]
          refine ⟨trivial, ?_⟩
          intro r hr
          cases hr
          exact ⟨fun c hc => by rw [List.mem_singleton.1 hc]; exact ha, hs⟩
        · have hne : i ≠ i + m := by omega
          simp only [if_neg hm0, if_neg hne]
          have e1 : (top.mapM (targets it.nfa a)) = some (top.map (fun u => (it.nfa.state u).transitions.getD a [])) :=
            mapM_some (fun u hu => by rw [h.nfa]; exact targets_eq h.wf (ht u hu) ha)
          rw [e1]
          simp only [Option.bind_some, List.foldl_map]
          have hset : ∀ q ∈ top.foldl (fun set idx => sextend set ((it.nfa.state idx).transitions.getD a [])) [], q < n.states.length := by
            intro q hq
            rcases Dandy.WordIter.mem_foldl_sextend.1 hq with hq | ⟨v, _, hv⟩
            · cases hq
            · rw [h.nfa] at hv
              exact Dandy.Nfa.tr_lt h.wf hv
          rw [retain_eq h hm hset]
          simp only [Option.bind_some]
          generalize hS : (top.foldl (fun set idx => sextend set ((it.nfa.state idx).transitions.getD a [])) []).filter _ = S
          have hSl : ∀ q ∈ S, q < n.states.length := fun q hq => hset q (by rw [← hS] at hq; exact (List.mem_filter.1 hq).1)
          have hst : ∀ T ∈ S :: stack, ∀ q ∈ T, q < n.states.length := by
            intro T hT
            rcases List.mem_cons.1 hT with rfl | hT
            · exact hSl
            · exact hs T hT
          obtain ⟨e2, e3⟩ := ih (i + 1) (by omega) S (S :: stack) hSl hst
          have e2' : minLoop it (i + (m + 1)) m (i + 1) S (S :: stack) = Dandy.WordIter.minLoop it m S (S :: stack) := e2
          rw [e2']
          refine ⟨rfl, ?_⟩
          intro r hr
          obtain ⟨⟨w, st⟩, h1, h2⟩ := Option.bind_eq_some_iff.1 hr
          cases h2
          obtain ⟨e4, e5⟩ := e3 _ h1
          refine ⟨?_, e5⟩
          intro c hc
          rcases List.mem_cons.1 hc with rfl | hc
          · exact ha
          · exact e4 c hc

theorem minWord_eq {n : Dandy.Nfa} {it : WordIter} (h : Ok n it) (k : Nat) :
    minWord it k = Dandy.WordIter.minWord it k ∧ ∀ r, Dandy.WordIter.minWord it k = some r →
      Ok n r.1 ∧ ∀ w, r.2 = some w → ∀ c ∈ w, c < n.alphabet.length := by
  obtain rfl : n = it.nfa := h.nfa.symm
  obtain ⟨g1, g2, g3⟩ := generateUpTo_eq h.two h.adj k
  unfold minWord Dandy.WordIter.minWord
  rw [g1]
  simp only [Option.bind_eq_bind, Option.bind_some]
  have h' : Ok it.nfa { it with adj := Dandy.WordIter.generateUpTo it.nfa.states.length it.adj k } := ⟨h.wf, h.nfa, g2, g3, h.finals, h.stack, h.last⟩
  cases hh : it.stack.head? with
  | none => exact ⟨rfl, nofun⟩
  | some top =>
    have ht : ∀ q ∈ top, q < it.nfa.states.length := h.stack top (List.mem_of_mem_head? hh)
    simp only [Option.bind_some]
    cases hmat : (Dandy.WordIter.generateUpTo it.nfa.states.length it.adj k)[k]? with
    | none => exact ⟨rfl, nofun⟩
    | some matrix =>
      have hm := g3 _ (List.mem_of_getElem? hmat)
      simp only [Option.bind_some]
      have e1 : top.mapM (fun a => it.finals.mapM (fun b => matGet matrix a b)) = some (top.map (fun a => it.finals.map (fun b => matrix.get a b))) :=
        mapM_some (fun a ha => mapM_some (fun b hb => matGet_eq hm (ht a ha) (h.finals b hb)))
      rw [e1]
      simp only [Option.bind_some, List.all_map]
      have e2 : (top.all ((fun l : List Bool => l.all (· == false)) ∘ fun a => it.finals.map (fun b => matrix.get a b))) =
          top.all (fun a => it.finals.all (fun b => matrix.get a b == false)) := by
        simp only [Function.comp_def, List.all_map]
      rw [e2]
      by_cases hall : top.all (fun a => it.finals.all (fun b => matrix.get a b == false)) = true
      · simp only [if_pos hall]
        refine ⟨trivial, ?_⟩
        intro r hr
        cases hr
        exact ⟨h', nofun⟩
      · simp only [if_neg hall]
        obtain ⟨e3, e4⟩ := minLoop_eq h' k k 0 (by omega) top it.stack ht h.stack
        rw [e3]
        refine ⟨rfl, ?_⟩
        intro r hr
        obtain ⟨⟨w, st⟩, h1, h2⟩ := Option.bind_eq_some_iff.1 hr
        cases h2
        obtain ⟨e5, e6⟩ := e4 _ h1
        exact ⟨⟨h'.wf, h'.nfa, h'.two, h'.adj, h'.finals, e6, h'.last⟩, fun w' hw' => by cases hw'; exact e5⟩

theorem allTargets_eq {n : Dandy.Nfa} (hn : n.WF) {S : List Nat} (hS : ∀ q ∈ S, q < n.states.length) :
    allTargets n S = some (S.flatMap (fun i => (n.state i).transitions.flatten)) ∧
      ∀ q ∈ S.flatMap (fun i => (n.state i).transitions.flatten), q < n.states.length := by
  constructor
  · unfold allTargets
    rw [mapM_some (g := fun i => (n.state i).transitions.flatten) (fun q hq => by rw [Dandy.Nfa.getElem?_state (hS q hq)]; rfl)]
    rfl
  · intro q hq
    obtain ⟨v, _, hv⟩ := List.mem_flatMap.1 hq
    obtain ⟨i, hi⟩ := Dandy.Nfa.mem_flatten_tr.1 hv
    exact Dandy.Nfa.tr_lt hn hi

theorem nComplete_eq {n : Dandy.Nfa} (hn : n.WF) (k : Nat) {q : Nat} (hq : q < n.states.length) : nComplete n k q = some (Dandy.WordIter.nComplete n k q) := by
  unfold nComplete Dandy.WordIter.nComplete
  obtain ⟨h1, h2⟩ := foldlM_some (f := fun s _ => do return sofList (← allTargets n s)) (g := fun s (_ : Nat) => Dandy.WordIter.succs n s)
    (fun S : List Nat => ∀ q ∈ S, q < n.states.length) (l := List.range k) (b := [q]) (fun S hS a _ => by
      obtain ⟨e1, e2⟩ := allTargets_eq hn hS
      refine ⟨by rw [e1]; rfl, ?_⟩
      intro x hx
      exact e2 x (mem_sofList.1 hx)) (fun x hx => by rw [List.mem_singleton.1 hx]; exact hq)
  rw [h1]
  change Option.bind (List.mapM (m := Option) (fun i : Nat => do return NfaState.accepting (← n.states[i]?)) _) _ = _
  rw [Nfa.accepting_eq h2]
  simp only [Option.bind_some, List.any_map]
  rfl

theorem keepComplete_eq {n : Dandy.Nfa} (hn : n.WF) {len i : Nat} (hi : i ≤ len) {l : List Nat} (hl : ∀ q ∈ l, q < n.states.length) :
    keepComplete n len i l = some (l.filter (Dandy.WordIter.nComplete n (len - i))) := by
  unfold keepComplete
  rw [usub, if_pos hi]
  rw [mapM_some (g := fun v => (v, Dandy.WordIter.nComplete n (len - i) v)) (fun v hv => by
    simp only [Option.bind_eq_bind, Option.bind_some, nComplete_eq hn _ (hl v hv)]
    rfl)]
  simp only [Option.bind_eq_bind, Option.bind_some, filter_pairs]
  rfl

theorem targetsOf_eq {n : Dandy.Nfa} (hn : n.WF) {S : List Nat} (hS : ∀ q ∈ S, q < n.states.length) {a : Nat} (ha : a < n.alphabet.length) :
    targetsOf n a S = some (S.flatMap (fun u => (n.state u).transitions.getD a [])) ∧
      ∀ q ∈ S.flatMap (fun u => (n.state u).transitions.getD a []), q < n.states.length := by
  constructor
  · unfold targetsOf
    rw [mapM_some (g := fun u => (n.state u).transitions.getD a []) (fun u hu => targets_eq hn (hS u hu) ha)]
    rfl
  · intro q hq
    obtain ⟨v, _, hv⟩ := List.mem_flatMap.1 hq
    exact Dandy.Nfa.tr_lt hn hv

theorem nextA_eq {n : Dandy.Nfa} (hn : n.WF) {S : List Nat} (hS : ∀ q ∈ S, q < n.states.length) {len i : Nat} (hi : i ≤ len) :
    nextA n S len i = some (Dandy.WordIter.nextA n S (len - i)) := by
  unfold nextA nextR
  obtain ⟨e1, e2⟩ := allTargets_eq hn hS
  rw [e1]
  simp only [Option.bind_eq_bind, Option.bind_some, keepComplete_eq hn hi e2]
  change Option.bind (List.mapM _ (List.range n.alphabet.length)) _ = _
  rw [mapM_some (g := fun idx => (idx, decide (((sofList (S.flatMap (fun u => (n.state u).transitions.getD idx []))).filter
    (· ∈ Dandy.WordIter.nextR n S (len - i))).length > 0))) (fun a ha => by
      rw [(targetsOf_eq hn hS (List.mem_range.1 ha)).1]
      rfl)]
  simp only [Option.bind_some, filter_pairs]
  rfl

theorem nextA_lt {n : Dandy.Nfa} {S : List Nat} {k a : Nat} (h : a ∈ Dandy.WordIter.nextA n S k) : a < n.alphabet.length :=
  List.mem_range.1 (List.mem_filter.1 h).1

theorem nextLoop_eq {n : Dandy.Nfa} {word : List Nat} (hw : ∀ c ∈ word, c < n.alphabet.length) (i : Nat) (hi : i ≤ word.length) {it : WordIter}
    (h : Ok n it) : nextLoop word i it = Dandy.WordIter.nextLoop word i it ∧ ∀ r, Dandy.WordIter.nextLoop word i it = some r →
      Ok n r.1 ∧ ∀ w, r.2 = some w → ∀ c ∈ w, c < n.alphabet.length := by
  induction i generalizing it with
  | zero => exact ⟨rfl, fun r hr => by cases hr; exact ⟨h, nofun⟩⟩
  | succ i ih =>
    have u1 : usub (i + 1) 1 = some i := by rw [usub, if_pos (by omega)]; rfl
    have u2 : usub word.length (i + 1) = some (word.length - (i + 1)) := by rw [usub, if_pos hi]
    obtain rfl : n = it.nfa := h.nfa.symm
    simp only [nextLoop, Dandy.WordIter.nextLoop, u1, u2, Option.bind_eq_bind, Option.bind_some]
    cases hh : it.stack.head? with
    | none => exact ⟨rfl, nofun⟩
    | some cur =>
      have hcur : ∀ q ∈ cur, q < it.nfa.states.length := h.stack cur (List.mem_of_mem_head? hh)
      simp only [Option.bind_some, nextA_eq h.wf hcur hi]
      cases hx : word[i]? with
      | none => exact ⟨rfl, nofun⟩
      | some x =>
        simp only [Option.bind_some]
        by_cases hall : (Dandy.WordIter.nextA it.nfa cur (word.length - (i + 1))).all (· ≤ x) = true
        · simp only [if_pos hall]
          have hok : Ok it.nfa { it with stack := it.stack.tail } :=
            ⟨h.wf, rfl, h.two, h.adj, h.finals, fun S hS => h.stack S (List.mem_of_mem_tail hS), h.last⟩
          exact ih (by omega) hok
        · simp only [if_neg hall]
          cases hf : (Dandy.WordIter.nextA it.nfa cur (word.length - (i + 1))).find? (fun a => decide (a > x)) with
          | none => exact ⟨rfl, nofun⟩
          | some b =>
            have hb := nextA_lt (List.mem_of_find?_eq_some hf)
            obtain ⟨e1, e2⟩ := targetsOf_eq h.wf hcur hb
            simp only [Option.bind_some, e1, keepComplete_eq h.wf hi e2]
            have hpre : ∀ c ∈ word.take i ++ [b], c < it.nfa.alphabet.length := by
              intro c hc
              rcases List.mem_append.1 hc with hc | hc
              · exact hw c (List.mem_of_mem_take hc)
              · rw [List.mem_singleton.1 hc]
                exact hb
            by_cases hl : i + 1 ≠ word.length
            · simp only [if_pos hl]
              generalize hS : sofList ((cur.flatMap (fun i => (it.nfa.state i).transitions.getD b [])).filter _) = S
              have hok : Ok it.nfa { it with stack := S :: it.stack } := by
                refine ⟨h.wf, rfl, h.two, h.adj, h.finals, ?_, h.last⟩
                intro T hT
                rcases List.mem_cons.1 hT with rfl | hT
                · intro q hq
                  rw [← hS, mem_sofList] at hq
                  exact e2 q (List.mem_filter.1 hq).1
                · exact h.stack T hT
              obtain ⟨e3, e4⟩ := minWord_eq hok (word.length - (i + 1))
              have e3' : minWord { nfa := it.nfa, adj := it.adj, finals := it.finals, stack := S :: it.stack, failed := it.failed, last := it.last }
                (word.length - (i + 1)) = _ := e3
              rw [e3']
              refine ⟨rfl, ?_⟩
              intro r hr
              obtain ⟨⟨it', rest⟩, h1, h2⟩ := Option.bind_eq_some_iff.1 hr
              obtain ⟨rest', h3, h4⟩ := Option.bind_eq_some_iff.1 h2
              cases h4
              obtain ⟨e5, e6⟩ := e4 _ h1
              refine ⟨e5, ?_⟩
              intro w hw'
              cases hw'
              intro c hc
              rcases List.mem_append.1 hc with hc | hc
              · exact hpre c hc
              · exact e6 rest' h3 c hc
            · simp only [if_neg hl]
              refine ⟨trivial, ?_⟩
              intro r hr
              cases hr
              exact ⟨h, fun w hw' => by cases hw'; exact hpre⟩

theorem cecLoop_eq {n : Dandy.Nfa} (c len : Nat) {it : WordIter} (h : Ok n it) :
    cecLoop c len it = Dandy.WordIter.cecLoop c len it ∧ ∀ r, Dandy.WordIter.cecLoop c len it = some r → Ok n r := by
  induction c generalizing len it with
  | zero => exact ⟨rfl, fun r hr => by cases hr; exact ⟨h.wf, h.nfa, h.two, h.adj, h.finals, h.stack, nofun⟩⟩
  | succ c ih =>
    have hok : Ok n { it with stack := [[it.nfa.initialState]] } := by
      refine ⟨h.wf, h.nfa, h.two, h.adj, h.finals, ?_, h.last⟩
      intro S hS q hq
      rw [List.mem_singleton.1 hS] at hq
      rw [List.mem_singleton.1 hq, h.nfa]
      exact h.wf.init_lt
    obtain ⟨e1, e2⟩ := minWord_eq hok len
    simp only [cecLoop, Dandy.WordIter.cecLoop, e1, Option.bind_eq_bind]
    generalize Dandy.WordIter.minWord _ len = m at e2
    cases m with
    | none => exact ⟨rfl, nofun⟩
    | some p =>
      obtain ⟨it', w⟩ := p
      obtain ⟨e3, e4⟩ := e2 _ rfl
      simp only [Option.bind_some]
      cases w with
      | none => exact ih (len + 1) e3
      | some w =>
        refine ⟨rfl, ?_⟩
        intro r hr
        cases hr
        exact ⟨e3.wf, e3.nfa, e3.two, e3.adj, e3.finals, e3.stack, fun w' hw' => by cases hw'; exact e4 w rfl⟩

theorem putNext_eq {n : Dandy.Nfa} {it : WordIter} (h : Ok n it) :
    putNext it = it.putNext ∧ ∀ r, it.putNext = some r → Ok n r := by
  unfold putNext Dandy.WordIter.putNext
  split
  · exact ⟨rfl, fun r hr => by cases hr; exact h⟩
  · cases hl : it.last with
    | none => exact cecLoop_eq _ _ h
    | some last =>
      obtain ⟨e1, e2⟩ := nextLoop_eq (h.last last hl) last.length (Nat.le_refl _) h
      simp only [nextWord, Dandy.WordIter.nextWord, e1, Option.bind_eq_bind]
      cases hm : Dandy.WordIter.nextLoop last last.length it with
      | none => exact ⟨rfl, nofun⟩
      | some p =>
        obtain ⟨it', w⟩ := p
        obtain ⟨e3, e4⟩ := e2 _ hm
        simp only [Option.bind_some]
        cases w with
        | none => exact cecLoop_eq _ _ e3
        | some w =>
          refine ⟨rfl, ?_⟩
          intro r hr
          cases hr
          exact ⟨e3.wf, e3.nfa, e3.two, e3.adj, e3.finals, e3.stack, fun w' hw' => by cases hw'; exact e4 w rfl⟩

theorem next_eq {n : Dandy.Nfa} {it : WordIter} (h : Ok n it) : next it = it.next ∧ ∀ r, it.next = some r → Ok n r.1 := by
  obtain ⟨e1, e2⟩ := putNext_eq h
  unfold next Dandy.WordIter.next
  rw [e1]
  refine ⟨rfl, ?_⟩
  intro r hr
  obtain ⟨it', h1, h2⟩ := Option.bind_eq_some_iff.1 hr
  cases h2
  exact e2 _ h1

theorem nextComponents_eq {n : Dandy.Nfa} {it : WordIter} (h : Ok n it) :
    nextComponents it = it.nextComponents ∧ ∀ r, it.nextComponents = some r → Ok n r.1 := by
  obtain ⟨e1, e2⟩ := putNext_eq h
  unfold nextComponents Dandy.WordIter.nextComponents
  rw [e1]
  cases hp : it.putNext with
  | none => exact ⟨rfl, nofun⟩
  | some it' =>
    have hok := e2 _ hp
    simp only [Option.bind_eq_bind, Option.bind_some]
    refine ⟨?_, fun r hr => by cases hr; exact hok⟩
    cases hl : it'.last with
    | none => rfl
    | some w =>
      dsimp only
      rw [mapM_some (g := fun c => it'.nfa.alphabet.getD c []) (fun c hc => getElem?_of_lt [] (by rw [hok.nfa]; exact hok.last w hl c hc))]
      rfl

theorem nextString_eq {n : Dandy.Nfa} {it : WordIter} (h : Ok n it) :
    nextString it = it.nextString ∧ ∀ r, it.nextString = some r → Ok n r.1 := by
  obtain ⟨e1, e2⟩ := putNext_eq h
  unfold nextString Dandy.WordIter.nextString
  rw [e1]
  cases hp : it.putNext with
  | none => exact ⟨rfl, nofun⟩
  | some it' =>
    have hok := e2 _ hp
    simp only [Option.bind_eq_bind, Option.bind_some]
    refine ⟨?_, fun r hr => by cases hr; exact hok⟩
    cases hl : it'.last with
    | none => rfl
    | some w =>
      dsimp only
      rw [(foldlM_some (g := fun s c => s ++ it'.nfa.alphabet.getD c []) (fun _ => True) (l := w) (fun b _ c hc => ⟨by
        rw [getElem?_of_lt [] (l := it'.nfa.alphabet) (i := c) (by rw [hok.nfa]; exact hok.last w hl c hc)]
        rfl, trivial⟩) trivial).1]
      rfl

theorem calls_eq {α : Type} {n : Dandy.Nfa} {f g : WordIter → Option (WordIter × Option α)}
    (h : ∀ it, Ok n it → f it = g it ∧ ∀ r, g it = some r → Ok n r.1) (k : Nat) {it : WordIter} (hit : Ok n it) :
    Dandy.WordIter.calls f k it = Dandy.WordIter.calls g k it := by
  induction k generalizing it with
  | zero => rfl
  | succ k ih =>
    obtain ⟨e1, e2⟩ := h it hit
    simp only [Dandy.WordIter.calls, e1, Option.bind_eq_bind]
    cases hg : g it with
    | none => rfl
    | some r =>
      simp only [Option.bind_some]
      rw [ih (e2 r hg)]

theorem words_eq {α : Type} {f g : WordIter → Option (WordIter × Option α)} {n : Dandy.Nfa} (hn : n.WF)
    (h : ∀ it, Ok n it → f it = g it ∧ ∀ r, g it = some r → Ok n r.1) (k : Nat) :
    ((new n).bind fun it => Dandy.WordIter.calls f k it) = (Dandy.WordIter.new n).bind fun it => Dandy.WordIter.calls g k it := by
  obtain ⟨e1, e2⟩ := new_eq hn
  rw [e1]
  cases hw : Dandy.WordIter.new n with
  | none => rfl
  | some it => exact calls_eq h k (e2 it hw)

end WordIter
end Checked
end Dandy
