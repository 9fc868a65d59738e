import Verif.Spec.Laws
import Verif.Props.Samples
import Verif.Props.DfaEvaluator
import Verif.Props.DfaProduct
import Verif.Props.DfaMinimize
import Verif.Props.NfaEvaluator
import Verif.Props.NfaProduct
import Verif.Props.NfaEps
import Verif.Props.NfaToDfa
/-! # C82: laws of the operations -/

namespace Dandy
open Samples

/-- Valid, over the elements, with the given words among those over the elements. -/
private def Good (al : List Str) (H : Word → Prop) : (k : Kind) → k.Automaton → Prop
  | .dfa, r => r.WF ∧ SameElems r.alphabet al ∧ ∀ x, Over al x → (r.Lang x ↔ H x)
  | .nfa, r => r.WF ∧ SameElems r.alphabet al ∧ ∀ x, Over al x → (r.Lang x ↔ H x)

private theorem same2 {a b al : List Str} (ha : SameElems a al) (hb : SameElems b al) : SameElems a b := fun e => (ha e).trans (hb e).symm

/-- What a term computes. -/
private theorem computes {al : List Str} {D : Nat → Dfa} {N : Nat → Nfa} (h : Compatible al D N) {k : Kind} (t : Term k) :
    (∃ r, t.Computes D N r) ∧
    ∀ r, t.Computes D N r → Good al (fun x => t.Holds (fun i => (D i).Lang x) (fun i => (N i).Lang x)) k r := by
  have hid : ∀ {α : Type}, IsOrder (id : List α → List α) := fun l => List.Perm.refl l
  induction t with
  | dfa i => exact ⟨⟨_, rfl⟩, fun r hr => by cases hr; exact ⟨h.dfa i, h.dfaElems i, fun _ _ => Iff.rfl⟩⟩
  | nfa i => exact ⟨⟨_, rfl⟩, fun r hr => by cases hr; exact ⟨h.nfa i, h.nfaElems i, fun _ _ => Iff.rfl⟩⟩
  | invert t ih =>
    refine ⟨ih.1.elim fun a ha => ⟨_, a, ha, rfl⟩, ?_⟩
    rintro r ⟨a, ha, rfl⟩
    obtain ⟨g1, g2, g3⟩ := ih.2 a ha
    refine ⟨(C07_invert_complement a g1 []).1, g2, fun x hx => ?_⟩
    rw [(C07_invert_complement a g1 x).2.1]
    exact ⟨fun hc => fun hh => hc.2 ((g3 x hx).2 hh), fun hc => ⟨fun e he => (g2 e).2 (hx e he), fun hh => hc ((g3 x hx).1 hh)⟩⟩
  | union t u ih ih' =>
    obtain ⟨⟨a, ha⟩, iha⟩ := ih
    obtain ⟨⟨b, hb⟩, ihb⟩ := ih'
    constructor
    · obtain ⟨p, hp, _⟩ := ((C09_dfa_set_operations id hid a b (iha a ha).1 (ihb b hb).1).2 (same2 (iha a ha).2.1 (ihb b hb).2.1)).1
      exact ⟨p, a, b, id, ha, hb, hid, hp⟩
    · rintro r ⟨a, b, ord, ha, hb, ho, hr⟩
      obtain ⟨g1, g2, g3⟩ := iha a ha
      obtain ⟨k1, k2, k3⟩ := ihb b hb
      obtain ⟨p, hp, p1, p2, p3⟩ := ((C09_dfa_set_operations ord ho a b g1 k1).2 (same2 g2 k2)).1
      rw [hp] at hr; cases hr
      exact ⟨p1, p2 ▸ g2, fun x hx => by rw [p3, g3 x hx, k3 x hx]; rfl⟩
  | intersection t u ih ih' =>
    obtain ⟨⟨a, ha⟩, iha⟩ := ih
    obtain ⟨⟨b, hb⟩, ihb⟩ := ih'
    constructor
    · obtain ⟨p, hp, _⟩ := ((C09_dfa_set_operations id hid a b (iha a ha).1 (ihb b hb).1).2 (same2 (iha a ha).2.1 (ihb b hb).2.1)).2.1
      exact ⟨p, a, b, id, ha, hb, hid, hp⟩
    · rintro r ⟨a, b, ord, ha, hb, ho, hr⟩
      obtain ⟨g1, g2, g3⟩ := iha a ha
      obtain ⟨k1, k2, k3⟩ := ihb b hb
      obtain ⟨p, hp, p1, p2, p3⟩ := ((C09_dfa_set_operations ord ho a b g1 k1).2 (same2 g2 k2)).2.1
      rw [hp] at hr; cases hr
      exact ⟨p1, p2 ▸ g2, fun x hx => by rw [p3, g3 x hx, k3 x hx]; rfl⟩
  | difference t u ih ih' =>
    obtain ⟨⟨a, ha⟩, iha⟩ := ih
    obtain ⟨⟨b, hb⟩, ihb⟩ := ih'
    constructor
    · obtain ⟨p, hp, _⟩ := ((C09_dfa_set_operations id hid a b (iha a ha).1 (ihb b hb).1).2 (same2 (iha a ha).2.1 (ihb b hb).2.1)).2.2.1
      exact ⟨p, a, b, id, ha, hb, hid, hp⟩
    · rintro r ⟨a, b, ord, ha, hb, ho, hr⟩
      obtain ⟨g1, g2, g3⟩ := iha a ha
      obtain ⟨k1, k2, k3⟩ := ihb b hb
      obtain ⟨p, hp, p1, p2, p3⟩ := ((C09_dfa_set_operations ord ho a b g1 k1).2 (same2 g2 k2)).2.2.1
      rw [hp] at hr; cases hr
      exact ⟨p1, p2 ▸ g2, fun x hx => by rw [p3, g3 x hx, k3 x hx]; rfl⟩
  | symmetricDifference t u ih ih' =>
    obtain ⟨⟨a, ha⟩, iha⟩ := ih
    obtain ⟨⟨b, hb⟩, ihb⟩ := ih'
    constructor
    · obtain ⟨p, hp, _⟩ := ((C09_dfa_set_operations id hid a b (iha a ha).1 (ihb b hb).1).2 (same2 (iha a ha).2.1 (ihb b hb).2.1)).2.2.2
      exact ⟨p, a, b, id, ha, hb, hid, hp⟩
    · rintro r ⟨a, b, ord, ha, hb, ho, hr⟩
      obtain ⟨g1, g2, g3⟩ := iha a ha
      obtain ⟨k1, k2, k3⟩ := ihb b hb
      obtain ⟨p, hp, p1, p2, p3⟩ := ((C09_dfa_set_operations ord ho a b g1 k1).2 (same2 g2 k2)).2.2.2
      rw [hp] at hr; cases hr
      exact ⟨p1, p2 ▸ g2, fun x hx => by rw [p3, g3 x hx, k3 x hx]; rfl⟩
  | minimize t ih =>
    obtain ⟨⟨a, ha⟩, iha⟩ := ih
    constructor
    · obtain ⟨m, hm, _⟩ := C16_minimize id id id hid hid hid a (iha a ha).1
      exact ⟨m, a, id, id, id, ha, hid, hid, hid, hm⟩
    · rintro r ⟨a, o1, o2, o3, ha, h1, h2, h3, hr⟩
      obtain ⟨g1, g2, g3⟩ := iha a ha
      obtain ⟨m, hm, m1, m2, m3, _⟩ := C16_minimize o1 o2 o3 h1 h2 h3 a g1
      rw [hm] at hr; cases hr
      exact ⟨m1, m2 ▸ g2, fun x hx => by rw [m3, g3 x hx]; rfl⟩
  | merge t ih =>
    obtain ⟨⟨a, ha⟩, iha⟩ := ih
    constructor
    · obtain ⟨m, _, hm, _⟩ := C15_merge id id hid hid a (iha a ha).1
      exact ⟨m, a, id, id, ha, hid, hid, hm⟩
    · rintro r ⟨a, o1, o2, ha, h1, h2, hr⟩
      obtain ⟨g1, g2, g3⟩ := iha a ha
      obtain ⟨m, _, hm, m1, m2, m3, _⟩ := C15_merge o1 o2 h1 h2 a g1
      rw [hm] at hr; cases hr
      exact ⟨m1, m2 ▸ g2, fun x hx => by rw [m3, g3 x hx]; rfl⟩
  | removeUnreachable t ih =>
    obtain ⟨⟨a, ha⟩, iha⟩ := ih
    constructor
    · obtain ⟨m, hm, _⟩ := C13_remove_unreachable id hid a (iha a ha).1
      exact ⟨m, a, id, ha, hid, hm⟩
    · rintro r ⟨a, o1, ha, h1, hr⟩
      obtain ⟨g1, g2, g3⟩ := iha a ha
      obtain ⟨m, hm, m1, m2, m3, _⟩ := C13_remove_unreachable o1 h1 a g1
      rw [hm] at hr; cases hr
      exact ⟨m1, m2 ▸ g2, fun x hx => by rw [m3, g3 x hx]; rfl⟩
  | toDfa t ih =>
    obtain ⟨⟨a, ha⟩, iha⟩ := ih
    constructor
    · obtain ⟨m, hm, _⟩ := C19_to_dfa a (iha a ha).1
      exact ⟨m, a, ha, hm⟩
    · rintro r ⟨a, ha, hr⟩
      obtain ⟨g1, g2, g3⟩ := iha a ha
      obtain ⟨m, hm, m1, m2, m3, _⟩ := C19_to_dfa a g1
      rw [hm] at hr; cases hr
      exact ⟨m1, m2 ▸ g2, fun x hx => by rw [m3, g3 x hx]; rfl⟩
  | toNfa t ih =>
    refine ⟨ih.1.elim fun a ha => ⟨_, a, ha, rfl⟩, ?_⟩
    rintro r ⟨a, ha, rfl⟩
    obtain ⟨g1, g2, g3⟩ := ih.2 a ha
    exact ⟨(C18_to_nfa_lang a g1 []).1, g2, fun x hx => by rw [(C18_to_nfa_lang a g1 x).2.1, g3 x hx]; rfl⟩
  | nfaUnion t u ih ih' =>
    obtain ⟨⟨a, ha⟩, iha⟩ := ih
    obtain ⟨⟨b, hb⟩, ihb⟩ := ih'
    constructor
    · obtain ⟨p, hp⟩ := (C21_union_err a b (iha a ha).1 (ihb b hb).1).2 (same2 (iha a ha).2.1 (ihb b hb).2.1)
      exact ⟨p, a, b, ha, hb, hp⟩
    · rintro r ⟨a, b, ha, hb, hr⟩
      obtain ⟨g1, g2, g3⟩ := iha a ha
      obtain ⟨k1, k2, k3⟩ := ihb b hb
      obtain ⟨p1, p2, p3, _⟩ := C21_union_lang a b r g1 k1 hr
      exact ⟨p1, p2 ▸ g2, fun x hx => by rw [p3, g3 x hx, k3 x hx]; rfl⟩
  | nfaIntersection t u ih ih' =>
    obtain ⟨⟨a, ha⟩, iha⟩ := ih
    obtain ⟨⟨b, hb⟩, ihb⟩ := ih'
    constructor
    · obtain ⟨⟨r, hr⟩, hn⟩ := C22_intersection_none_iff id hid a b (iha a ha).1 (ihb b hb).1
      cases r with
      | none => exact absurd (same2 (iha a ha).2.1 (ihb b hb).2.1) (hn.1 hr)
      | some p => exact ⟨p, a, b, id, ha, hb, hid, hr⟩
    · rintro r ⟨a, b, ord, ha, hb, ho, hr⟩
      obtain ⟨g1, g2, g3⟩ := iha a ha
      obtain ⟨k1, k2, k3⟩ := ihb b hb
      obtain ⟨p1, p2, p3, _⟩ := C22_intersection_lang ord ho a b r g1 k1 hr
      exact ⟨p1, p2 ▸ g2, fun x hx => by rw [p3, g3 x hx, k3 x hx]; rfl⟩
  | nfaRemoveUnreachable t ih =>
    obtain ⟨⟨a, ha⟩, iha⟩ := ih
    constructor
    · obtain ⟨m, hm, _⟩ := C27_nfa_remove_unreachable id hid a (iha a ha).1
      exact ⟨m, a, id, ha, hid, hm⟩
    · rintro r ⟨a, o1, ha, h1, hr⟩
      obtain ⟨g1, g2, g3⟩ := iha a ha
      obtain ⟨m, hm, m1, m2, m3, _⟩ := C27_nfa_remove_unreachable o1 h1 a g1
      rw [hm] at hr; cases hr
      exact ⟨m1, m2 ▸ g2, fun x hx => by rw [m3, g3 x hx]; rfl⟩
  | removeEpsilonMoves t ih =>
    obtain ⟨⟨a, ha⟩, iha⟩ := ih
    constructor
    · obtain ⟨m, hm, _⟩ := C25_remove_epsilon_moves (fun _ _ => id) (fun _ _ => hid) id hid a (iha a ha).1
      exact ⟨m, a, _, id, ha, fun _ _ => hid, hid, hm⟩
    · rintro r ⟨a, o1, o2, ha, h1, h2, hr⟩
      obtain ⟨g1, g2, g3⟩ := iha a ha
      obtain ⟨m, hm, m1, m2, _, _, m3, _⟩ := C25_remove_epsilon_moves o1 h1 o2 h2 a g1
      rw [hm] at hr; cases hr
      exact ⟨m1, m2 ▸ g2, fun x hx => by rw [m3, g3 x hx]; rfl⟩
  | optimize t ih =>
    obtain ⟨⟨a, ha⟩, iha⟩ := ih
    constructor
    · obtain ⟨m, hm, _⟩ := C28_optimize id hid (fun _ _ => id) (fun _ _ => hid) id hid a (iha a ha).1
      exact ⟨m, a, id, _, id, ha, hid, fun _ _ => hid, hid, hm⟩
    · rintro r ⟨a, o1, o2, o3, ha, h1, h2, h3, hr⟩
      obtain ⟨g1, g2, g3⟩ := iha a ha
      obtain ⟨m, hm, m1, m2, _, m3, _⟩ := C28_optimize o1 h1 o2 h2 o3 h3 a g1
      rw [hm] at hr; cases hr
      exact ⟨m1, m2 ▸ g2, fun x hx => by rw [m3, g3 x hx]; rfl⟩

/-- **C82** Any composition of operations on automata over the same elements succeeds. -/
theorem C82_total (al : List Str) (D : Nat → Dfa) (N : Nat → Nfa) (h : Compatible al D N) (k : Kind) (t : Term k) :
    ∃ r, t.Computes D N r := (computes h t).1

/-- Equivalent variables. -/
private structure Related (D D' : Nat → Dfa) (N N' : Nat → Nfa) : Prop where
  dfa : ∀ i x, (D i).Lang x ↔ (D' i).Lang x
  nfa : ∀ i x, (N i).Lang x ↔ (N' i).Lang x

private theorem related {al : List Str} {D D' : Nat → Dfa} {N N' : Nat → Nfa} (h : Compatible al D N) (h' : Compatible al D' N')
    (hD : ∀ i, (D i).equivalentTo (D' i) = some true) (hN : ∀ i, (N i).equivalentTo (N' i) = some true) : Related D D' N N' := by
  constructor
  · exact fun i => ((C11_dfa_equivalent_to _ _ (h.dfa i) (h'.dfa i)).2.1 (hD i)).2
  · intro i
    obtain ⟨b, h1, h2⟩ := C20_nfa_equivalent_to _ _ (h.nfa i) (h'.nfa i)
    rw [hN i] at h1
    cases h1
    exact (h2.1 rfl).2

private theorem holds_congr {v v' w w' : Nat → Prop} (hv : ∀ i, v i ↔ v' i) (hw : ∀ i, w i ↔ w' i) {k : Kind} (t : Term k) :
    t.Holds v w ↔ t.Holds v' w' := by
  rw [show v = v' from funext fun i => propext (hv i), show w = w' from funext fun i => propext (hw i)]

/-- **C82** All laws of propositional logic hold for the operations on DFAs, up to `equivalent_to`, for every iteration order of hash sets in every
call; and equals can be replaced by equals. -/
theorem C82_dfa_laws (al : List Str) (D D' : Nat → Dfa) (N N' : Nat → Nfa) (h : Compatible al D N) (h' : Compatible al D' N')
    (hD : ∀ i, (D i).equivalentTo (D' i) = some true) (hN : ∀ i, (N i).equivalentTo (N' i) = some true)
    (t u : Term .dfa) (htu : ∀ v w, t.Holds v w ↔ u.Holds v w) (r r' : Dfa) (hr : t.Computes D N r) (hr' : u.Computes D' N' r') :
    r.equivalentTo r' = some true := by
  obtain ⟨g1, g2, g3⟩ := (computes h t).2 r hr
  obtain ⟨k1, k2, k3⟩ := (computes h' u).2 r' hr'
  have hrel := related h h' hD hN
  refine (C11_dfa_equivalent_to r r' g1 k1).2.2 ⟨same2 g2 k2, fun x => ?_⟩
  by_cases hx : Over al x
  · rw [g3 x hx, k3 x hx]
    dsimp only
    rw [htu]
    exact holds_congr (fun i => hrel.dfa i x) (fun i => hrel.nfa i x) u
  · exact ⟨fun hl => absurd (fun e he => (g2 e).1 (Dfa.over_of_lang g1 hl e he)) hx,
      fun hl => absurd (fun e he => (k2 e).1 (Dfa.over_of_lang k1 hl e he)) hx⟩

/-- **C82** The same for NFAs. -/
theorem C82_nfa_laws (al : List Str) (D D' : Nat → Dfa) (N N' : Nat → Nfa) (h : Compatible al D N) (h' : Compatible al D' N')
    (hD : ∀ i, (D i).equivalentTo (D' i) = some true) (hN : ∀ i, (N i).equivalentTo (N' i) = some true)
    (t u : Term .nfa) (htu : ∀ v w, t.Holds v w ↔ u.Holds v w) (r r' : Nfa) (hr : t.Computes D N r) (hr' : u.Computes D' N' r') :
    r.equivalentTo r' = some true := by
  obtain ⟨g1, g2, g3⟩ := (computes h t).2 r hr
  obtain ⟨k1, k2, k3⟩ := (computes h' u).2 r' hr'
  have hrel := related h h' hD hN
  obtain ⟨b, hb, hb'⟩ := C20_nfa_equivalent_to r r' g1 k1
  rw [hb, hb'.2]
  refine ⟨same2 g2 k2, fun x => ?_⟩
  by_cases hx : Over al x
  · rw [g3 x hx, k3 x hx]
    dsimp only
    rw [htu]
    exact holds_congr (fun i => hrel.dfa i x) (fun i => hrel.nfa i x) u
  · exact ⟨fun hl => absurd (fun e he => (g2 e).1 (Nfa.over_of_lang hl e he)) hx,
      fun hl => absurd (fun e he => (k2 e).1 (Nfa.over_of_lang hl e he)) hx⟩

/-- The DFA with one state. -/
private def oneState (al : List Str) (b : Bool) : Dfa := ⟨al, [⟨[], true, b, al.map (fun _ => 0)⟩], 0⟩

private theorem oneState_wf {al : List Str} (h : al.Nodup) (b : Bool) : (oneState al b).WF where
  alphabet_nodup := h
  names_nodup := by simp [oneState]
  row_len := by simp [oneState]
  targets := by simp [oneState]
  init_lt := by simp [oneState]
  init_flag := by
    intro i s hs
    cases i with
    | zero => cases hs; simp [oneState]
    | succ i => cases hs

private theorem oneState_empty (al : List Str) (b : Bool) : (oneState al b).Lang [] ↔ b = true := by
  constructor
  · rintro ⟨q, hq, s, hs, ha⟩
    cases hq
    cases hs
    exact ha
  · intro hb
    exact ⟨0, .nil _, _, rfl, hb⟩

open Classical in
private theorem oneStates {al : List Str} (hal : al.Nodup) (v w : Nat → Prop) :
    ∃ D N, Compatible al D N ∧ (∀ i, (D i).Lang [] ↔ v i) ∧ ∀ i, (N i).Lang [] ↔ w i :=
  ⟨fun i => oneState al (decide (v i)), fun i => (oneState al (decide (w i))).toNfa,
    ⟨fun _ => oneState_wf hal _, fun _ => (C18_to_nfa_lang _ (oneState_wf hal _) []).1, fun _ _ => Iff.rfl, fun _ _ => Iff.rfl⟩,
    fun _ => (oneState_empty _ _).trans decide_eq_true_iff,
    fun _ => ((C18_to_nfa_lang _ (oneState_wf hal _) []).2.1).trans ((oneState_empty _ _).trans decide_eq_true_iff)⟩

/-- **C82** No other laws hold for the operations on DFAs: if two formulas differ for some truth values, then over every alphabet there are
automata for which the results are not equivalent. -/
theorem C82_only_laws (al : List Str) (hal : al.Nodup) (t u : Term .dfa) (v w : Nat → Prop) (htu : ¬ (t.Holds v w ↔ u.Holds v w)) :
    ∃ D N, Compatible al D N ∧ ∀ r r', t.Computes D N r → u.Computes D N r' → r.equivalentTo r' = some false := by
  classical
  obtain ⟨D, N, hc, hv, hw⟩ := oneStates hal v w
  refine ⟨D, N, hc, fun r r' hr hr' => ?_⟩
  obtain ⟨g1, g2, g3⟩ := (computes hc t).2 r hr
  obtain ⟨k1, k2, k3⟩ := (computes hc u).2 r' hr'
  obtain ⟨⟨b, hb⟩, hiff⟩ := C11_dfa_equivalent_to r r' g1 k1
  cases b with
  | false => exact hb
  | true =>
    have := (hiff.1 hb).2 []
    have h0 : Over al [] := fun e he => absurd he List.not_mem_nil
    rw [g3 [] h0, k3 [] h0] at this
    dsimp only at this
    rw [holds_congr hv hw, holds_congr hv hw] at this
    exact absurd this htu

/-- **C82** Nor do other laws hold for the operations on NFAs. -/
theorem C82_nfa_only_laws (al : List Str) (hal : al.Nodup) (t u : Term .nfa) (v w : Nat → Prop) (htu : ¬ (t.Holds v w ↔ u.Holds v w)) :
    ∃ D N, Compatible al D N ∧ ∀ r r', t.Computes D N r → u.Computes D N r' → r.equivalentTo r' = some false := by
  classical
  obtain ⟨D, N, hc, hv, hw⟩ := oneStates hal v w
  refine ⟨D, N, hc, fun r r' hr hr' => ?_⟩
  obtain ⟨g1, g2, g3⟩ := (computes hc t).2 r hr
  obtain ⟨k1, k2, k3⟩ := (computes hc u).2 r' hr'
  obtain ⟨b, hb, hiff⟩ := C20_nfa_equivalent_to r r' g1 k1
  cases b with
  | false => exact hb
  | true =>
    have := (hiff.1 rfl).2 []
    have h0 : Over al [] := fun e he => absurd he List.not_mem_nil
    rw [g3 [] h0, k3 [] h0] at this
    dsimp only at this
    rw [holds_congr hv hw, holds_congr hv hw] at this
    exact absurd this htu

/-- **C82** The result of an unsatisfiable formula accepts nothing, and this is what `has_reachable_accepting_state` says. In particular for a
`difference` whose first formula implies the second. -/
theorem C82_empty (al : List Str) (D : Nat → Dfa) (N : Nat → Nfa) (h : Compatible al D N) (t : Term .dfa) (ht : ∀ v w, ¬ t.Holds v w) (r : Dfa)
    (hr : t.Computes D N r) : r.hasReachableAcceptingState = some false := by
  obtain ⟨g1, g2, g3⟩ := (computes h t).2 r hr
  obtain ⟨_, _, b, hb, hb'⟩ := C12_dfa_reachability r g1
  cases b with
  | false => exact hb
  | true =>
    obtain ⟨x, hx⟩ := hb'.1 rfl
    exact absurd ((g3 x (fun e he => (g2 e).1 (Dfa.over_of_lang g1 hx e he))).1 hx) (ht _ _)

/-- **C82** `equivalent_to` of DFAs is an equivalence relation. -/
theorem C82_dfa_equivalence (a b c : Dfa) (ha : a.WF) (hb : b.WF) (hc : c.WF) :
    a.equivalentTo a = some true ∧ a.equivalentTo b = b.equivalentTo a ∧
    (a.equivalentTo b = some true → b.equivalentTo c = some true → a.equivalentTo c = some true) := by
  have key : ∀ {x y : Dfa}, x.WF → y.WF → x.equivalentTo y = some true → y.equivalentTo x = some true := by
    intro x y hx hy h
    obtain ⟨h1, h2⟩ := (C11_dfa_equivalent_to x y hx hy).2.1 h
    exact (C11_dfa_equivalent_to y x hy hx).2.2 ⟨fun e => (h1 e).symm, fun w => (h2 w).symm⟩
  refine ⟨(C11_dfa_equivalent_to a a ha ha).2.2 ⟨fun _ => Iff.rfl, fun _ => Iff.rfl⟩, ?_, ?_⟩
  · obtain ⟨x, hx⟩ := (C11_dfa_equivalent_to a b ha hb).1
    obtain ⟨y, hy⟩ := (C11_dfa_equivalent_to b a hb ha).1
    cases x with
    | true => rw [hx, key ha hb hx]
    | false =>
      cases y with
      | false => rw [hx, hy]
      | true => rw [key hb ha hy] at hx; cases hx
  · intro h1 h2
    obtain ⟨p1, p2⟩ := (C11_dfa_equivalent_to a b ha hb).2.1 h1
    obtain ⟨q1, q2⟩ := (C11_dfa_equivalent_to b c hb hc).2.1 h2
    exact (C11_dfa_equivalent_to a c ha hc).2.2 ⟨fun e => (p1 e).trans (q1 e), fun w => (p2 w).trans (q2 w)⟩

/-- **C82** `equivalent_to` of NFAs is an equivalence relation, and agrees with that of DFAs. -/
theorem C82_nfa_equivalence (a b c : Nfa) (ha : a.WF) (hb : b.WF) (hc : c.WF) :
    a.equivalentTo a = some true ∧ a.equivalentTo b = b.equivalentTo a ∧
    (a.equivalentTo b = some true → b.equivalentTo c = some true → a.equivalentTo c = some true) ∧
    (∀ d e, a.toDfa = some d → b.toDfa = some e → a.equivalentTo b = d.equivalentTo e) := by
  have key : ∀ {x y : Nfa}, x.WF → y.WF → (x.equivalentTo y = some true ↔ SameElems x.alphabet y.alphabet ∧ ∀ w, x.Lang w ↔ y.Lang w) := by
    intro x y hx hy
    obtain ⟨b, hb, h1⟩ := C20_nfa_equivalent_to x y hx hy
    rw [hb, ← h1, Option.some.injEq]
  have tot : ∀ {x y : Nfa}, x.WF → y.WF → ∃ b, x.equivalentTo y = some b := fun hx hy =>
    (C20_nfa_equivalent_to _ _ hx hy).imp fun _ h => h.1
  have ext : ∀ {p q : Option Bool}, (∃ b, p = some b) → (∃ b, q = some b) → (p = some true ↔ q = some true) → p = q := by
    rintro p q ⟨x, rfl⟩ ⟨y, rfl⟩ h
    cases x <;> cases y <;> simp_all
  refine ⟨(key ha ha).2 ⟨fun _ => Iff.rfl, fun _ => Iff.rfl⟩, ?_, ?_, ?_⟩
  · refine ext (tot ha hb) (tot hb ha) ?_
    rw [key ha hb, key hb ha]
    exact ⟨fun h => ⟨fun e => (h.1 e).symm, fun w => (h.2 w).symm⟩, fun h => ⟨fun e => (h.1 e).symm, fun w => (h.2 w).symm⟩⟩
  · rw [key ha hb, key hb hc, key ha hc]
    exact fun h1 h2 => ⟨fun e => (h1.1 e).trans (h2.1 e), fun w => (h1.2 w).trans (h2.2 w)⟩
  · intro d e hd he
    obtain ⟨d', p1, p2, p3, p4, _⟩ := C19_to_dfa a ha
    rw [hd] at p1; cases p1
    obtain ⟨e', q1, q2, q3, q4, _⟩ := C19_to_dfa b hb
    rw [he] at q1; cases q1
    refine ext (tot ha hb) (C11_dfa_equivalent_to d e p2 q2).1 ?_
    rw [key ha hb, (C11_dfa_equivalent_to d e p2 q2).2, p3, q3]
    exact ⟨fun h => ⟨h.1, fun w => by rw [p4, q4, h.2]⟩, fun h => ⟨h.1, fun w => by rw [← p4, ← q4, h.2]⟩⟩

/-! ## Examples -/

/-- De Morgan, with a detour through NFAs: `¬(A ∪ B)` and `(¬A minimized) ∩ toDfa(toNfa(¬B))`. -/
def deMorgan1 : Term .dfa := .invert (.union (.dfa 0) (.dfa 1))
def deMorgan2 : Term .dfa := .intersection (.minimize (.invert (.dfa 0))) (.toDfa (.optimize (.toNfa (.invert (.dfa 1)))))

example : ∀ v w, deMorgan1.Holds v w ↔ deMorgan2.Holds v w := by
  intro v w
  simp only [deMorgan1, deMorgan2, Term.Holds]
  tauto

/-- Absorption for NFAs. -/
example : ∀ v w, (Term.nfaUnion (.nfa 0) (.nfaIntersection (.nfa 0) (.nfa 1))).Holds v w ↔ (Term.removeEpsilonMoves (.nfa 0)).Holds v w := by
  intro v w
  simp only [Term.Holds]
  tauto

/-- `A \ B` and `B \ A`: not a law. -/
example : ∃ v w, ¬ ((Term.difference (.dfa 0) (.dfa 1)).Holds v w ↔ (Term.difference (.dfa 1) (.dfa 0)).Holds v w) :=
  ⟨fun i => i = 0, fun _ => True, by simp [Term.Holds]⟩

/-- Union and intersection of NFAs: not a law. -/
example : ∃ v w, ¬ ((Term.nfaUnion (.nfa 0) (.nfa 1)).Holds v w ↔ (Term.nfaIntersection (.nfa 0) (.nfa 1)).Holds v w) :=
  ⟨fun _ => True, fun i => i = 0, by simp [Term.Holds]⟩

theorem samples_compatible :
    Compatible [s 'a', s 'b'] (fun i => if i = 0 then oddA else endsB) (fun i => if i = 0 then epsNfa else evenA) where
  dfa i := by split; exacts [oddA_wf, endsB_wf]
  nfa i := by split; exacts [epsNfa_wf, evenA_wf]
  dfaElems i := by split <;> intro e <;> simp [oddA, endsB, or_comm]
  nfaElems i := by split <;> intro e <;> simp [epsNfa, evenA, or_comm]

/-- De Morgan for these automata, whatever was computed. -/
example (r r' : Dfa) (h : deMorgan1.Computes (fun i => if i = 0 then oddA else endsB) (fun i => if i = 0 then epsNfa else evenA) r)
    (h' : deMorgan2.Computes (fun i => if i = 0 then oddA else endsB) (fun i => if i = 0 then epsNfa else evenA) r') :
    r.equivalentTo r' = some true :=
  C82_dfa_laws _ _ _ _ _ samples_compatible samples_compatible
    (fun i => (C82_dfa_equivalence _ _ _ (samples_compatible.dfa i) (samples_compatible.dfa i) (samples_compatible.dfa i)).1)
    (fun i => (C82_nfa_equivalence _ _ _ (samples_compatible.nfa i) (samples_compatible.nfa i) (samples_compatible.nfa i)).1)
    deMorgan1 deMorgan2 (fun v w => by simp only [deMorgan1, deMorgan2, Term.Holds]; tauto) r r' h h'

example := C82_total _ _ _ samples_compatible .dfa deMorgan2

-- computing the example of De Morgan
example : ((Dfa.union id oddA endsB).bind fun x => x.bind fun x =>
    (oddA.invert.minimize id id id).bind fun a => (endsB.invert.toNfa.optimize id (fun _ _ => id) id).bind fun n => n.toDfa.bind fun b =>
    (Dfa.intersection List.reverse a b).bind fun y => y.bind fun y => x.invert.equivalentTo y) = some true := by decide +kernel

/-! ## Instances of the theorems of this file -/

example := C82_nfa_laws _ _ _ _ _ samples_compatible samples_compatible
  (fun i => (C82_dfa_equivalence _ _ _ (samples_compatible.dfa i)
  (samples_compatible.dfa i) (samples_compatible.dfa i)).1)
  (fun i => (C82_nfa_equivalence _ _ _ (samples_compatible.nfa i)
  (samples_compatible.nfa i) (samples_compatible.nfa i)).1)
  (.nfaUnion (.nfa 0) (.nfaIntersection (.nfa 0) (.nfa 1)))
  (.removeEpsilonMoves (.nfa 0)) (by intro v w; simp only [Term.Holds]; tauto)
example := C82_only_laws [s 'a', s 'b'] (by decide) (.difference (.dfa 0) (.dfa 1)) (.difference (.dfa 1) (.dfa 0)) (fun i => i = 0) (fun _
  => True) (by simp [Term.Holds])
example := C82_nfa_only_laws [s 'a', s 'b'] (by decide) (.nfaUnion (.nfa 0) (.nfa 1)) (.nfaIntersection (.nfa 0) (.nfa 1)) (fun _ => True)
  (fun i => i = 0) (by simp [Term.Holds])
example := C82_empty _ _ _ samples_compatible (.difference (.dfa 0) (.dfa 0)) (by simp [Term.Holds])

end Dandy
