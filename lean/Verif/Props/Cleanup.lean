import Verif.Props.NfaEps
import Verif.Props.DfaMinimize
import Verif.Proofs.Cleanup
/-! # C96 cleaning up removes exactly what is documented, and a second time nothing -/

namespace Dandy
open Samples

private theorem path_one {n : Nfa} {q t : Nat} {e : Str} :
    n.Path q [e] t ↔ ∃ c p u : Nat, n.alphabet[c]? = some e ∧ n.EpsR q p ∧ u ∈ n.tr p c ∧ n.EpsR u t := by
  simp only [Nfa.path_cons_iff, Nfa.path_nil_iff, Nfa.Step]
  constructor
  · rintro ⟨p, u, h1, ⟨c, h2, h3⟩, h4⟩; exact ⟨c, p, u, h2, h1, h3, h4⟩
  · rintro ⟨c, p, u, h2, h1, h3, h4⟩; exact ⟨p, u, h1, ⟨c, h2, h3⟩, h4⟩

private theorem reads_lt {n : Nfa} (hn : n.WF) {q t : Nat} {e : Str} (h : n.Reads q e t) : t < n.states.length := by
  obtain ⟨c, u, _, h2, h3⟩ := Nfa.reads_iff.1 h
  obtain ⟨s, ts, g1, g2, g3⟩ := Nfa.mem_tr.1 h2
  exact Nfa.path_lt hn (hn.targets s (List.mem_of_getElem? g1) ts (List.mem_of_getElem? g2) u g3) (Nfa.path_nil_iff.2 h3)

/-- **C96** Which states are dead: those from which no walk, reading one element at each step, leads to an accepting state (or to the
initial state, unless it is demoted), and from which one cannot walk on for ever. -/
theorem C96_dead_iff (n : Nfa) (hn : n.WF) (b : Bool) (q : Nat) (hq : q < n.states.length) :
    n.Dead b q ↔
      (¬ ∃ (t : Nat) (s : NfaState), Relation.ReflTransGen (fun x y => ∃ e, n.Reads x e y) q t ∧ n.states[t]? = some s ∧
        (s.accepting = true ∨ b = false ∧ s.initial = true)) ∧
      (¬ ∃ f : Nat → Nat, f 0 = q ∧ ∀ i, ∃ e, n.Reads (f i) e (f (i + 1))) := by
  constructor
  · intro h
    clear hq
    induction h with
    | mk q s h1 h2 h3 _ ih =>
      constructor
      · rintro ⟨t, s', hr, g1, g2⟩
        rcases hr.cases_head with rfl | ⟨u, ⟨e, hu⟩, hr⟩
        · rw [h1] at g1; cases g1
          rcases g2 with g2 | ⟨g2, g3⟩
          · rw [h2] at g2; cases g2
          · rw [h3 g2] at g3; cases g3
        · exact (ih e u hu).1 ⟨t, s', hr, g1, g2⟩
      · rintro ⟨f, rfl, hf⟩
        obtain ⟨e, he⟩ := hf 0
        exact (ih e _ he).2 ⟨fun i => f (i + 1), rfl, fun i => hf (i + 1)⟩
  · rintro ⟨h1, h2⟩
    by_contra hc
    have next : ∀ x : {x // x < n.states.length ∧ ¬ n.Dead b x ∧ Relation.ReflTransGen (fun x y => ∃ e, n.Reads x e y) q x},
        ∃ y : {x // x < n.states.length ∧ ¬ n.Dead b x ∧ Relation.ReflTransGen (fun x y => ∃ e, n.Reads x e y) q x},
          ∃ e, n.Reads x.1 e y.1 := by
      rintro ⟨x, g1, g2, g3⟩
      by_contra hno
      apply g2
      have hs := Nfa.getElem?_state g1
      refine .mk x _ hs ?_ ?_ ?_
      · rw [Bool.eq_false_iff]
        exact fun ha => h1 ⟨x, _, g3, hs, .inl ha⟩
      · intro hb
        rw [Bool.eq_false_iff]
        exact fun hi => h1 ⟨x, _, g3, hs, .inr ⟨hb, hi⟩⟩
      · intro e t ht
        by_contra hd
        exact hno ⟨⟨t, reads_lt hn ht, hd, g3.tail ⟨e, ht⟩⟩, e, ht⟩
    choose g hg using next
    let F : Nat → {x // x < n.states.length ∧ ¬ n.Dead b x ∧ Relation.ReflTransGen (fun x y => ∃ e, n.Reads x e y) q x} :=
      fun i => Nat.rec ⟨q, hq, hc, .refl⟩ (fun _ x => g x) i
    exact h2 ⟨fun i => (F i).1, rfl, fun i => hg (F i)⟩

/-- Of `docNfa`, the state `0` is dead: it has no transitions. -/
private theorem docNfa_dead : docNfa.Dead false 1 := by
  refine .mk 1 _ rfl rfl (fun _ => rfl) ?_
  intro e t h
  obtain ⟨c, u, _, h2, _⟩ := Nfa.reads_iff.1 h
  obtain ⟨s, ts, g1, g2, g3⟩ := Nfa.mem_tr.1 h2
  cases g1
  match c, g2 with
  | 0, g2 => cases g2; cases g3
  | 1, g2 => cases g2; cases g3
  | 2, g2 => cases g2; cases g3

example : ¬ ∃ f : Nat → Nat, f 0 = 1 ∧ ∀ i, ∃ e, docNfa.Reads (f i) e (f (i + 1)) :=
  ((C96_dead_iff docNfa docNfa_wf false 1 (by decide)).1 docNfa_dead).2

/-- `i` goes to `x` without reading, `x` reads `a` and goes to the accepting `y`. -/
def skipNfa : Nfa :=
  { alphabet := [s 'a'],
    states := [⟨s 'i', true, false, [1], [[]]⟩, ⟨s 'x', false, false, [], [[2]]⟩, ⟨s 'y', false, true, [], [[]]⟩],
    initialState := 0 }

theorem skipNfa_wf : skipNfa.WF := Nfa.wf_of_wfB (by decide)

/-- `x` is not dead, and reachable from `i` without reading. -/
private theorem skipNfa_many : skipNfa.ManyInitial := by
  refine ⟨1, .eps (s := ⟨s 'i', true, false, [1], [[]]⟩) rfl (by simp) (.nil 1), by decide, ?_⟩
  intro h
  refine ((C96_dead_iff skipNfa skipNfa_wf false 1 (by decide)).1 h).1
    ⟨2, ⟨s 'y', false, true, [], [[]]⟩, .single ⟨s 'a', 2, ⟨0, ⟨s 'x', false, false, [], [[2]]⟩, [2], rfl, rfl, rfl, by simp⟩, .nil 2⟩, rfl, .inl rfl⟩

private theorem pairwise_keptOf (k : Nat) (D : List Nat) : (keptOf k D).Pairwise (· < ·) := by
  unfold keptOf
  exact List.Pairwise.filter _ List.pairwise_lt_range

private theorem filterMap_states {n : Nfa} {α : Type} (f : NfaState → α) : ∀ (kept : List Nat), (∀ q ∈ kept, q < n.states.length) →
    kept.filterMap (fun q => (n.states[q]?).map f) = kept.map (fun q => f (n.state q)) := by
  intro kept hk
  induction kept with
  | nil => rfl
  | cons q kept ih =>
    rw [List.filterMap_cons, Nfa.getElem?_state (hk q (by simp)), ih (fun x hx => hk x (List.mem_cons_of_mem _ hx))]
    rfl

/-- **C96** The states left by the removal of epsilon moves. If no other state that is not dead can be reached from the initial state by
epsilon moves, these are the states that are not dead, in their order, with their names and flags. Otherwise these are the states that are
not dead when the initial state is treated like the others, in their order, none of them initial, followed by one new initial state, which
has the name of the old one if that is gone and a name not used so far if it is not, and which is accepting exactly if the empty word is
accepted. -/
theorem C96_states (ordT : Nat → Nat → List Nat → List Nat) (hordT : ∀ s c l, (ordT s c l).Perm l)
    (ordDead : List Nat → List Nat) (hordDead : ∀ l, (ordDead l).Perm l) (n : Nfa) (hn : n.WF)
    (heps : ∃ s ∈ n.states, s.epsilonTransitions ≠ []) :
    ∃ (m : Nfa) (kept : List Nat), n.removeEpsilonMoves ordT ordDead = some m ∧ kept.Pairwise (· < ·) ∧
      (¬ n.ManyInitial → (∀ q, q ∈ kept ↔ q < n.states.length ∧ ¬ n.Dead false q) ∧
        m.states.map NfaState.look = kept.filterMap (fun q => (n.states[q]?).map NfaState.look)) ∧
      (n.ManyInitial → (∀ q, q ∈ kept ↔ q < n.states.length ∧ ¬ n.Dead true q) ∧
        ∃ (i : NfaState) (name : Str) (acc : Bool), n.states[n.initialState]? = some i ∧
          m.states.map NfaState.look =
            kept.filterMap (fun q => (n.states[q]?).map (fun s => (s.name, false, s.accepting))) ++ [(name, true, acc)] ∧
          (acc = true ↔ n.Lang []) ∧ (n.Dead true n.initialState → name = i.name) ∧
          (¬ n.Dead true n.initialState → name ∉ n.states.map (·.name))) := by
  have he : n.hasEpsilonMoves = true := by
    simpa [Nfa.hasEpsilonMoves] using heps
  obtain ⟨m, D, h1, h2, hx⟩ := Nfa.removeEpsilonMoves_eq hordT hordDead hn he
  have hmany := h2.many hx hn
  refine ⟨_, keptOf n.states.length D, h1, pairwise_keptOf _ _, ?_, ?_⟩
  · intro hm
    have hl := hmany.2.1 hm
    refine ⟨?_, ?_⟩
    · intro q
      rw [mem_keptOf, (h2.mem_dead hx).1 hl, Nfa.dead_iff hn]
    · rw [Nfa.restr_looks, hl, filterMap_states _ _ (fun q hq => (mem_keptOf.1 hq).1)]
      refine List.map_congr_left (fun q hq => ?_)
      obtain ⟨hq1, _⟩ := mem_keptOf.1 hq
      have hi : m.initialState = n.initialState := by
        rcases h2.init with ⟨_, g, _⟩ | ⟨g, _⟩
        · exact g
        · omega
      have hf : (m.state q).initial = (n.state q).initial := by
        rw [Bool.eq_iff_iff, h2.flags q (by omega), hi, hn.init_flag q _ (Nfa.getElem?_state hq1)]
      rw [NfaState.look, NfaState.look, (h2.old q hq1).1, (h2.old q hq1).2.1, hf]
  · intro hm
    have hl := hmany.1.1 hm
    have hk : keptOf m.states.length D = keptOf n.states.length D ++ [n.states.length] := by
      rw [hl]
      unfold keptOf
      rw [List.range_succ, List.filter_append]
      congr 1
      rw [List.filter_cons_of_pos]
      · rfl
      · simp only [decide_eq_true_eq]
        exact fun hc => Nat.lt_irrefl _ (h2.Dlt _ hc)
    have hD : ∀ q, q ∈ D ↔ n.Dead true q := fun q => by rw [(h2.mem_dead hx).2 hl, Nfa.dead_iff hn]
    rcases h2.init with ⟨g, _⟩ | ⟨_, hi, _, _, hacc, _, hname⟩
    · omega
    refine ⟨?_, n.state n.initialState, (m.state n.states.length).name, (m.state n.states.length).accepting,
      Nfa.getElem?_state hn.init_lt, ?_, ?_, ?_, ?_⟩
    · intro q
      rw [mem_keptOf, hD]
    · rw [Nfa.restr_looks, hk, List.map_append, filterMap_states _ _ (fun q hq => (mem_keptOf.1 hq).1)]
      congr 1
      · refine List.map_congr_left (fun q hq => ?_)
        obtain ⟨hq1, _⟩ := mem_keptOf.1 hq
        have hf : (m.state q).initial = false := by
          rw [Bool.eq_false_iff]
          intro hc
          have := (h2.flags q (by omega)).1 hc
          omega
        rw [NfaState.look, (h2.old q hq1).1, (h2.old q hq1).2.1, hf]
      · have hf : (m.state n.states.length).initial = true := (h2.flags _ (by omega)).2 hi.symm
        rw [List.map_singleton, NfaState.look, hf]
    · rw [hacc]
      unfold Nfa.Lang
      simp only [Nfa.path_nil_iff, Nfa.acc_iff]
    · intro hd
      rcases hname with ⟨g, _⟩ | ⟨_, g⟩
      · exact g
      · exact absurd ((hD _).2 hd) g
    · intro hd
      rcases hname with ⟨_, g⟩ | ⟨g, _⟩
      · exact absurd ((hD _).1 g) hd
      · rw [g]; exact (freshName_spec _ _).1

/-- `docNfa` has many initial states; all but `0` and `2` are kept, and `i` is replaced. `skipNfa` likewise. -/
example : (docNfa.removeEpsilonMoves (fun _ _ l => l) id).map (·.states.map NfaState.look) =
      some [(s '1', false, false), (s '3', false, false), (s 'x', false, false), (s 'y', false, true), (s 'i', true, true)] ∧
    (skipNfa.removeEpsilonMoves (fun _ _ l => l) id).map (·.states.map NfaState.look) =
      some [(s 'x', false, false), (s 'y', false, true), (s 'i', true, false)] := by decide

example := (C96_states (fun _ _ l => l) (fun _ _ _ => .refl _) id (fun _ => .refl _) skipNfa skipNfa_wf
  ⟨⟨s 'i', true, false, [1], [[]]⟩, by decide, by decide⟩)

/-- **C96** The transitions left by the removal of epsilon moves: between states that are kept, those which read an element and then take
any number of epsilon moves; from a new initial state, those which take any number of epsilon moves before and after. -/
theorem C96_moves (ordT : Nat → Nat → List Nat → List Nat) (hordT : ∀ s c l, (ordT s c l).Perm l)
    (ordDead : List Nat → List Nat) (hordDead : ∀ l, (ordDead l).Perm l) (n : Nfa) (hn : n.WF)
    (heps : ∃ s ∈ n.states, s.epsilonTransitions ≠ []) (m : Nfa) (h : n.removeEpsilonMoves ordT ordDead = some m)
    (b : Bool) (hb : b = true ↔ n.ManyInitial) (t : Nat) (u : NfaState) (ht : n.states[t]? = some u) (htd : ¬ n.Dead b t) (e : Str) :
    (∀ (q : Nat) (s : NfaState), n.states[q]? = some s → ¬ n.Dead b q → (m.NamedMove s.name e u.name ↔ n.Reads q e t)) ∧
    (b = true → ∀ i ∈ m.states, i.initial = true →
      (m.NamedMove i.name e u.name ↔ n.Path n.initialState [e] t) ∧ ¬ m.NamedMove u.name e i.name) := by
  have he : n.hasEpsilonMoves = true := by
    simpa [Nfa.hasEpsilonMoves] using heps
  obtain ⟨m', D, h1, h2, hx⟩ := Nfa.removeEpsilonMoves_eq hordT hordDead hn he
  rw [h1] at h; cases h
  have hmany := h2.many hx hn
  have hD : ∀ q, q ∈ D ↔ n.Dead b q := by
    intro q
    rw [Nfa.dead_iff hn]
    cases b with
    | false => exact (h2.mem_dead hx).1 (hmany.2.1 (fun hm => by simpa using hb.2 hm))
    | true => exact (h2.mem_dead hx).2 (hmany.1.1 (hb.1 rfl))
  have hok := h2.restrOk hn
  have hwf := h2.restr_wf hn
  have hkept : ∀ q (s : NfaState), n.states[q]? = some s → ¬ n.Dead b q → q ∈ keptOf m'.states.length D ∧ (m'.state q).name = s.name := by
    intro q s hs hq
    have hlt := lt_of_getElem? hs
    refine ⟨mem_keptOf.2 ⟨lt_of_lt_of_le hlt h2.le, fun hc => hq ((hD q).1 hc)⟩, ?_⟩
    rw [(h2.old q hlt).1, Nfa.state_of_getElem? hs]
  obtain ⟨tk, tn⟩ := hkept t u ht htd
  have hold : ∀ q < n.states.length, ∀ c x, x ∈ m'.tr q c → x < n.states.length := by
    intro q hq c x hx'
    obtain ⟨_, y, hy, hr⟩ := ((h2.old q hq).2.2.2.2 c x).1 hx'
    obtain ⟨s, ts, g1, g2, g3⟩ := Nfa.mem_tr.1 hy
    exact Nfa.path_lt hn (hn.targets s (List.mem_of_getElem? g1) ts (List.mem_of_getElem? g2) y g3) (Nfa.path_nil_iff.2 hr)
  constructor
  · intro q s hs hq
    obtain ⟨qk, qn⟩ := hkept q s hs hq
    rw [← qn, ← tn, Nfa.restr_named hok hwf qk tk, Nfa.reads_iff, h2.alph]
    refine exists_congr (fun c => ?_)
    rw [(h2.old q (lt_of_getElem? hs)).2.2.2.2 c t]
    constructor
    · rintro ⟨g1, _, y, g2, g3⟩; exact ⟨y, g1, g2, g3⟩
    · rintro ⟨y, g1, g2, g3⟩; exact ⟨g1, fun hc => htd ((hD t).1 hc), y, g2, g3⟩
  · intro hbt i hi hii
    have hl := hmany.1.1 (hb.1 hbt)
    rcases h2.init with ⟨g, _⟩ | ⟨_, hini, _, _, _, htr, _⟩
    · omega
    have ik : n.states.length ∈ keptOf m'.states.length D :=
      mem_keptOf.2 ⟨by omega, fun hc => Nat.lt_irrefl _ (h2.Dlt _ hc)⟩
    have iname : i.name = (m'.state n.states.length).name := by
      simp only [Nfa.restr, List.mem_map] at hi
      obtain ⟨q, hq, rfl⟩ := hi
      have := (h2.flags q (mem_keptOf.1 hq).1).1 hii
      rw [hini] at this
      rw [this]
    constructor
    · rw [iname, ← tn, Nfa.restr_named hok hwf ik tk, path_one, h2.alph]
      refine exists_congr (fun c => ?_)
      rw [htr c t]
      constructor
      · rintro ⟨g1, _, p, y, g2, g3, g4⟩; exact ⟨p, y, g1, g2, g3, g4⟩
      · rintro ⟨p, y, g1, g2, g3, g4⟩; exact ⟨g1, fun hc => htd ((hD t).1 hc), p, y, g2, g3, g4⟩
    · rw [iname, ← tn, Nfa.restr_named hok hwf tk ik]
      rintro ⟨c, _, g⟩
      exact Nat.lt_irrefl _ (hold t (lt_of_getElem? ht) c _ g)

/-- In `skipNfa`, the new initial state reads `a` and goes to `y`. -/
example (m : Nfa) (h : skipNfa.removeEpsilonMoves (fun _ _ l => l) id = some m) (i : NfaState) (hi : i ∈ m.states) (hii : i.initial = true) :
    m.NamedMove i.name (s 'a') (s 'y') := by
  refine (((C96_moves (fun _ _ l => l) (fun _ _ _ => .refl _) id (fun _ => .refl _) skipNfa skipNfa_wf
    ⟨⟨s 'i', true, false, [1], [[]]⟩, by decide, by decide⟩ m h true ⟨fun _ => skipNfa_many, fun _ => rfl⟩ 2 ⟨s 'y', false, true, [], [[]]⟩
    rfl (fun hd => by cases hd with | mk _ _ h1 h2 => cases h1; cases h2) (s 'a')).2 rfl i hi hii).1).2 ?_
  exact .eps (t := 1) (s := ⟨s 'i', true, false, [1], [[]]⟩) rfl (by simp)
    (.step (i := 0) (s := ⟨s 'x', false, false, [], [[2]]⟩) (ts := [2]) rfl rfl rfl (by simp) (.nil 2))

/-- **C96** Removing epsilon moves leaves an automaton as it is exactly if it has none, so a second time it changes nothing. -/
theorem C96_epsilon_unchanged_iff (ordT : Nat → Nat → List Nat → List Nat) (hordT : ∀ s c l, (ordT s c l).Perm l)
    (ordDead : List Nat → List Nat) (hordDead : ∀ l, (ordDead l).Perm l) (n : Nfa) (hn : n.WF) :
    n.removeEpsilonMoves ordT ordDead = some n ↔ ∀ s ∈ n.states, s.epsilonTransitions = [] := by
  constructor
  · intro h
    obtain ⟨m, g1, _, _, g4, _⟩ := C25_remove_epsilon_moves ordT hordT ordDead hordDead n hn
    rw [h] at g1; cases g1
    exact g4
  · intro h
    have : n.hasEpsilonMoves = false := by simpa [Nfa.hasEpsilonMoves] using h
    simp [Nfa.removeEpsilonMoves, this]

/-- **C96** Removing unreachable states leaves an NFA as it is, to the last detail, exactly if all states are reachable; so a second time
it changes nothing. -/
theorem C96_nfa_unchanged_iff (ord : List Nat → List Nat) (hord : ∀ l, (ord l).Perm l) (n : Nfa) (hn : n.WF) :
    n.removeUnreachableStates ord = some n ↔ ∀ q < n.states.length, ∃ w, n.Path n.initialState w q := by
  obtain ⟨kept, h1, h2, h3, h4⟩ := Nfa.removeUnreachableStates_eq hord hn
  rw [h4]
  constructor
  · intro h q hq
    obtain ⟨n', g1, _, _, _, g5, _⟩ := C27_nfa_remove_unreachable ord hord n hn
    rw [h4, h] at g1; cases g1
    exact g5 q hq
  · intro h
    have : kept = List.range n.states.length :=
      sorted_ext h1 List.pairwise_lt_range (fun q => by
        rw [h2, List.mem_range]
        exact ⟨fun hr => hr.lt hn, fun hq => h q hq⟩)
    rw [this, Nfa.restr_all hn]

/-- **C96** The same for DFAs. -/
theorem C96_dfa_unchanged_iff (ord : List Nat → List Nat) (hord : ∀ l, (ord l).Perm l) (d : Dfa) (hd : d.WF) :
    d.removeUnreachableStates ord = some d ↔ ∀ q < d.states.length, ∃ w, d.Run d.initialState w q := by
  obtain ⟨kept, h1, h2, h3, h4⟩ := Dfa.removeUnreachableStates_eq hord hd
  obtain ⟨d', g1, _, _, _, g5, _⟩ := C13_remove_unreachable ord hord d hd
  rw [h4] at g1 ⊢
  constructor
  · intro h q hq
    rw [h] at g1; cases g1
    exact g5 q hq
  · intro h
    have : kept = List.range d.states.length :=
      sorted_ext h1 List.pairwise_lt_range (fun q => by
        rw [h2, List.mem_range]
        refine ⟨fun hr => hr.lt hd, fun hq => ?_⟩
        obtain ⟨w, hw⟩ := h q hq
        exact ⟨w, (Dfa.run_iff hd hd.init_lt).1 hw⟩)
    rw [this, Dfa.quot_all hd]

/-- **C96** `optimize` leaves an automaton as it is exactly if it has no epsilon moves and all states are reachable. -/
theorem C96_optimize_unchanged_iff (ordU : List Nat → List Nat) (hordU : ∀ l, (ordU l).Perm l)
    (ordT : Nat → Nat → List Nat → List Nat) (hordT : ∀ s c l, (ordT s c l).Perm l)
    (ordDead : List Nat → List Nat) (hordDead : ∀ l, (ordDead l).Perm l) (n : Nfa) (hn : n.WF) :
    n.optimize ordU ordT ordDead = some n ↔
      (∀ s ∈ n.states, s.epsilonTransitions = []) ∧ ∀ q < n.states.length, ∃ w, n.Path n.initialState w q := by
  obtain ⟨kept, h1, h2, h3, h4⟩ := Nfa.removeUnreachableStates_eq hordU hn
  constructor
  · intro h
    obtain ⟨m, g1, _, _, g4, _⟩ := C28_optimize ordU hordU ordT hordT ordDead hordDead n hn
    rw [h] at g1; cases g1
    refine ⟨g4, (C96_nfa_unchanged_iff ordU hordU n hn).1 ?_⟩
    rw [Nfa.optimize, h4] at h
    rw [h4]
    have hne : ∀ s ∈ (n.restr kept).states, s.epsilonTransitions = [] := by
      intro s hs
      simp only [Nfa.restr, List.mem_map] at hs
      obtain ⟨q, hq, rfl⟩ := hs
      show ((n.state q).epsilonTransitions).map _ = []
      rw [g4 _ (Nfa.state_mem (h3.lt q hq))]
      rfl
    have := (C96_epsilon_unchanged_iff ordT hordT ordDead hordDead _ (Nfa.restr_wf' hn h3)).2 hne
    exact this.symm.trans h
  · rintro ⟨g1, g2⟩
    rw [Nfa.optimize, (C96_nfa_unchanged_iff ordU hordU n hn).2 g2]
    exact (C96_epsilon_unchanged_iff ordT hordT ordDead hordDead n hn).2 g1

/-- **C96** After `optimize` has been run twice, running it again changes nothing: no epsilon moves and no unreachable states are left. -/
theorem C96_optimize_twice (ordU ordU' : List Nat → List Nat) (hordU : ∀ l, (ordU l).Perm l) (hordU' : ∀ l, (ordU' l).Perm l)
    (ordT ordT' : Nat → Nat → List Nat → List Nat) (hordT : ∀ s c l, (ordT s c l).Perm l) (hordT' : ∀ s c l, (ordT' s c l).Perm l)
    (ordDead ordDead' : List Nat → List Nat) (hordDead : ∀ l, (ordDead l).Perm l) (hordDead' : ∀ l, (ordDead' l).Perm l)
    (n : Nfa) (hn : n.WF) :
    ∃ m m', n.optimize ordU ordT ordDead = some m ∧ m.optimize ordU' ordT' ordDead' = some m' ∧
      m.removeUnreachableStates ordU' = some m' ∧
      (∀ s ∈ m'.states, s.epsilonTransitions = []) ∧ (∀ q < m'.states.length, ∃ w, m'.Path m'.initialState w q) ∧
      m'.optimize ordU ordT ordDead = some m' := by
  obtain ⟨m, h1, h2, _, h4, _⟩ := C28_optimize ordU hordU ordT hordT ordDead hordDead n hn
  obtain ⟨kept, _, _, g3, g4⟩ := Nfa.removeUnreachableStates_eq hordU' h2
  have hne : ∀ s ∈ (m.restr kept).states, s.epsilonTransitions = [] := by
    intro s hs
    simp only [Nfa.restr, List.mem_map] at hs
    obtain ⟨q, hq, rfl⟩ := hs
    show ((m.state q).epsilonTransitions).map _ = []
    rw [h4 _ (Nfa.state_mem (g3.lt q hq))]
    rfl
  have hwf := Nfa.restr_wf' h2 g3
  have hreach : ∀ q < (m.restr kept).states.length, ∃ w, (m.restr kept).Path (m.restr kept).initialState w q := by
    obtain ⟨n', k1, _, _, _, k5, _⟩ := C27_nfa_remove_unreachable ordU' hordU' m h2
    rw [g4] at k1; cases k1
    exact k5
  refine ⟨m, m.restr kept, h1, ?_, g4, hne, hreach, ?_⟩
  · rw [Nfa.optimize, g4]
    exact (C96_epsilon_unchanged_iff ordT' hordT' ordDead' hordDead' _ hwf).2 hne
  · exact (C96_optimize_unchanged_iff ordU hordU ordT hordT ordDead hordDead _ hwf).2 ⟨hne, hreach⟩

/-- **C96** The opposite order would do at once: removing the epsilon moves first and then the unreachable states leaves neither. -/
theorem C96_opposite_order (ordU : List Nat → List Nat) (hordU : ∀ l, (ordU l).Perm l)
    (ordT : Nat → Nat → List Nat → List Nat) (hordT : ∀ s c l, (ordT s c l).Perm l)
    (ordDead : List Nat → List Nat) (hordDead : ∀ l, (ordDead l).Perm l) (n : Nfa) (hn : n.WF) :
    ∃ m m', n.removeEpsilonMoves ordT ordDead = some m ∧ m.removeUnreachableStates ordU = some m' ∧ (∀ w, m'.Lang w ↔ n.Lang w) ∧
      m'.optimize ordU ordT ordDead = some m' := by
  obtain ⟨m, h1, h2, _, h4, _, h6, _⟩ := C25_remove_epsilon_moves ordT hordT ordDead hordDead n hn
  obtain ⟨kept, _, _, g3, g4⟩ := Nfa.removeUnreachableStates_eq hordU h2
  obtain ⟨n', k1, _, _, k4, k5, _⟩ := C27_nfa_remove_unreachable ordU hordU m h2
  rw [g4] at k1; cases k1
  refine ⟨m, _, h1, g4, fun w => (k4 w).trans (h6 w),
    (C96_optimize_unchanged_iff ordU hordU ordT hordT ordDead hordDead _ (Nfa.restr_wf' h2 g3)).2 ⟨?_, k5⟩⟩
  intro s hs
  simp only [Nfa.restr, List.mem_map] at hs
  obtain ⟨q, hq, rfl⟩ := hs
  show ((m.state q).epsilonTransitions).map _ = []
  rw [h4 _ (Nfa.state_mem (g3.lt q hq))]
  rfl

/-- `evenA` has neither epsilon moves nor unreachable states; `epsNfa` and `skipNfa` are changed. -/
example : evenA.optimize List.reverse (fun _ _ l => l) id = some evenA ∧ epsNfa.removeUnreachableStates id ≠ some epsNfa ∧
    skipNfa.removeUnreachableStates id = some skipNfa ∧ skipNfa.removeEpsilonMoves (fun _ _ l => l) id ≠ some skipNfa := by
  refine ⟨rfl, ?_, rfl, ?_⟩
  · intro h
    have := congrArg (Option.map (·.states.map (·.name))) h
    revert this; decide
  · intro h
    have := congrArg (Option.map (·.states.map (·.name))) h
    revert this; decide

/-- **C96** Running `optimize` once is not enough: states that could only be reached by epsilon moves are left behind, unreachable, and
are removed by running it again. -/
theorem C96_optimize_once_false : ∃ n m m' : Nfa, n.WF ∧ n.optimize id (fun _ _ l => l) id = some m ∧
    m.optimize id (fun _ _ l => l) id = some m' ∧ (∃ q < m.states.length, ¬ ∃ w, m.Path m.initialState w q) ∧
    m.states.map (·.name) = [s 'x', s 'y', s 'i'] ∧ m'.states.map (·.name) = [s 'y', s 'i'] := by
  refine ⟨skipNfa, _, _, skipNfa_wf, rfl, rfl, ?_, by decide, by decide⟩
  have hwf : Nfa.WF { alphabet := [s 'a'], states := [⟨s 'x', false, false, [], [[1]]⟩, ⟨s 'y', false, true, [], [[]]⟩, ⟨s 'i', true, false, [], [[1]]⟩], initialState := 2 } := Nfa.wf_of_wfB (by decide)
  obtain ⟨u, u1, _, u3⟩ := (C27_nfa_reachability _ hwf).2.1
  refine ⟨0, by decide, ?_⟩
  have hu : u = [0] := by
    have : some u = some [0] := by rw [← u1]; decide
    simpa using this
  exact ((u3 0).1 (by rw [hu]; simp)).2

/-! ## Instances of the theorems of this file -/

example := C96_epsilon_unchanged_iff (fun _ _ l => l.reverse) (fun _ _ l => List.reverse_perm l) List.reverse (fun l => List.reverse_perm
  l) Samples.epsNfa Samples.epsNfa_wf
example := C96_nfa_unchanged_iff List.reverse (fun l => List.reverse_perm l) Samples.epsNfa Samples.epsNfa_wf
example := C96_dfa_unchanged_iff List.reverse (fun l => List.reverse_perm l) Samples.redundant Samples.redundant_wf
example := C96_optimize_unchanged_iff List.reverse (fun l => List.reverse_perm l) (fun _ _ l => l.reverse) (fun _ _ l => List.reverse_perm
  l) List.reverse (fun l => List.reverse_perm l) Samples.epsNfa Samples.epsNfa_wf
example := C96_optimize_twice List.reverse List.reverse (fun l => List.reverse_perm l) (fun l => List.reverse_perm l) (fun _ _ l =>
  l.reverse) (fun _ _ l => l.reverse) (fun _ _ l => List.reverse_perm l) (fun _ _ l => List.reverse_perm l) List.reverse List.reverse (fun
  l => List.reverse_perm l) (fun l => List.reverse_perm l) Samples.epsNfa Samples.epsNfa_wf

end Dandy
