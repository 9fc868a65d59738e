import Verif.Props.NfaEvaluator
import Verif.Proofs.NfaProduct
/-! # C21 union, C22 intersection, C23 and C24 product construction of NFAs -/

namespace Dandy
open Samples

theorem map_eq_range_map {α β : Type} (l : List α) (d : α) (f : α → β) :
    l.map f = (List.range l.length).map (fun q => f (l.getD q d)) := by
  apply List.ext_getElem
  · simp
  · intro i h1 h2
    simp only [List.length_map] at h1
    simp [h1]

theorem nfa_move_iff {n : Nfa} {q t : Nat} {e : Str} : n.Move q e t ↔ n.Step q e t := by
  unfold Nfa.Move Nfa.Step
  constructor
  · rintro ⟨i, s, ts, h1, h2, h3, h4⟩; exact ⟨i, h2, Nfa.mem_tr.2 ⟨s, ts, h1, h3, h4⟩⟩
  · rintro ⟨i, h2, h5⟩
    obtain ⟨s, ts, h1, h3, h4⟩ := Nfa.mem_tr.1 h5
    exact ⟨i, s, ts, h1, h2, h3, h4⟩

theorem nfa_stuck_iff {n : Nfa} {w : Word} : n.Stuck w ↔ n.OutFrom (some n.initialState) w none := by
  unfold Nfa.Stuck
  simp only [Nfa.OutFrom, nfa_move_iff]
  constructor
  · rintro ⟨u, v, e, q, h1, h2, h3⟩; push Not at h3; exact ⟨u, e, v, q, h1, h2, h3⟩
  · rintro ⟨u, e, v, q, h1, h2, h3⟩; exact ⟨u, v, e, q, h1, h2, by push Not; exact h3⟩

theorem nfa_outcome_iff {n : Nfa} (hn : n.WF) {w : Word} {s : Option NfaState} :
    n.Outcome w s ↔ ∃ a, n.OutFrom (some n.initialState) w a ∧ s = a.map n.state := by
  cases s with
  | none =>
    simp only [Nfa.Outcome, nfa_stuck_iff]
    constructor
    · intro h; exact ⟨none, h, rfl⟩
    · rintro ⟨a, h1, h2⟩
      cases a with
      | none => exact h1
      | some _ => cases h2
  | some s =>
    simp only [Nfa.Outcome]
    constructor
    · rintro ⟨q, h1, h2⟩; exact ⟨some q, h1, by rw [Option.map_some, Nfa.state_of_getElem? h2]⟩
    · rintro ⟨a, h1, h2⟩
      cases a with
      | none => cases h2
      | some q =>
        simp only [Option.map_some, Option.some.injEq] at h2
        exact ⟨q, h1, by rw [h2]; exact Nfa.getElem?_state (Nfa.path_lt hn hn.init_lt h1)⟩

theorem nfa_lang_iff_outcome {n : Nfa} {w : Word} : n.Lang w ↔ ∃ s, n.Outcome w (some s) ∧ s.accepting = true := by
  unfold Nfa.Lang Nfa.Outcome Nfa.Acc
  constructor
  · rintro ⟨q, h1, s, h2, h3⟩; exact ⟨s, ⟨q, h1, h2⟩, h3⟩
  · rintro ⟨s, ⟨q, h1, h2⟩, h3⟩; exact ⟨q, h1, s, h2, h3⟩

/-- **C21** `union` returns the two unchanged inputs as error exactly when the alphabets differ as sets; it never panics. -/
theorem C21_union_err (n o : Nfa) (hn : n.WF) (ho : o.WF) :
    (¬ SameElems n.alphabet o.alphabet → n.union o = some (.error (n, o))) ∧
    (SameElems n.alphabet o.alphabet → ∃ u, n.union o = some (.ok u)) := by
  constructor
  · intro h
    have : alphabetEqual n.alphabet o.alphabet = false := by
      rw [← Bool.not_eq_true, alphabetEqual_iff hn.alphabet_nodup ho.alphabet_nodup]; exact h
    simp [Nfa.union, this]
  · intro h
    obtain ⟨u, h1, _⟩ := Nfa.union_eq hn ho h
    exact ⟨u, h1⟩

/-- **C21** The union is a valid NFA over the first alphabet (same order) accepting a word iff at least one operand does. -/
theorem C21_union_lang (n o u : Nfa) (hn : n.WF) (ho : o.WF) (h : n.union o = some (.ok u)) :
    u.WF ∧ u.alphabet = n.alphabet ∧ (∀ w, u.Lang w ↔ n.Lang w ∨ o.Lang w) ∧
      ∀ w, u.accepts w = (n.accepts w || o.accepts w) := by
  have hs : SameElems n.alphabet o.alphabet := by
    by_contra hc
    rw [(C21_union_err n o hn ho).1 hc] at h
    cases h
  obtain ⟨u', h1, h2⟩ := Nfa.union_eq hn ho hs
  rw [h1] at h; cases h
  have hwf := h2.wf hn ho hs
  have hl := h2.lang hn ho hs
  refine ⟨hwf, h2.alph, hl, fun w => ?_⟩
  rw [Bool.eq_iff_iff, Bool.or_eq_true, C02_nfa_accepts_iff _ hwf, C02_nfa_accepts_iff n hn, C02_nfa_accepts_iff o ho]
  exact hl w

/-- **C21** Size and names: the states are those of the operands in order plus a new last one, the initial state, called
`s_new` or a number; the others keep their names, unless there is a clash, when all of them are called 1, 2, 3, ... -/
theorem C21_union_names (n o u : Nfa) (hn : n.WF) (ho : o.WF) (h : n.union o = some (.ok u)) :
    u.states.length = n.states.length + o.states.length + 1 ∧ u.initialState = n.states.length + o.states.length ∧
    (u.states.map (·.accepting) = n.states.map (·.accepting) ++ o.states.map (·.accepting) ++ [false]) ∧
    ∃ last, (u.states.map (·.name) = n.states.map (·.name) ++ o.states.map (·.name) ++ [last] ∨
      u.states.map (·.name) =
        (List.range (n.states.length + o.states.length)).map (fun i => numStr (i + 1)) ++ [last]) ∧
      (last = ['s', '_', 'n', 'e', 'w'] ∨ ∃ i, last = numStr i) := by
  have hs : SameElems n.alphabet o.alphabet := by
    by_contra hc
    rw [(C21_union_err n o hn ho).1 hc] at h
    cases h
  obtain ⟨u', h1, h2⟩ := Nfa.union_eq hn ho hs
  rw [h1] at h; cases h
  have hlen := h2.len
  have hsplit : ∀ {β : Type} (f : NfaState → β), u.states.map f =
      (List.range n.states.length).map (fun q => f (u.state q)) ++
      (List.range o.states.length).map (fun q => f (u.state (n.states.length + q))) ++
      [f (u.state (n.states.length + o.states.length))] := by
    intro β f
    rw [map_eq_range_map u.states default f, hlen]
    rw [List.range_succ, List.range_add]
    simp only [List.map_append, List.map_map, List.map_cons, List.map_nil]
    rfl
  have hmapn : ∀ {β : Type} (m : Nfa) (f : NfaState → β), m.states.map f =
      (List.range m.states.length).map (fun q => f (m.state q)) := by
    intro β m f
    exact map_eq_range_map m.states default f
  refine ⟨hlen, h2.init, ?_, _, ?_, h2.newname⟩
  · rw [hsplit, hmapn n, hmapn o, h2.new.1]
    congr 1
    congr 1
    · apply List.map_congr_left
      intro q hq
      exact (h2.left q (List.mem_range.1 hq)).1
    · apply List.map_congr_left
      intro q hq
      exact (h2.right q (List.mem_range.1 hq)).1
  · rcases h2.names' with ⟨g1, g2⟩ | g1
    · left
      rw [hsplit, hmapn n, hmapn o]
      congr 1
      congr 1
      · apply List.map_congr_left
        intro q hq
        exact g1 q (List.mem_range.1 hq)
      · apply List.map_congr_left
        intro q hq
        exact g2 q (List.mem_range.1 hq)
    · right
      rw [hsplit, List.range_add, List.map_append]
      congr 1
      congr 1
      · apply List.map_congr_left
        intro q hq
        exact g1 q (by have := List.mem_range.1 hq; omega)
      · rw [List.map_map]
        apply List.map_congr_left
        intro q hq
        exact g1 _ (by have := List.mem_range.1 hq; omega)

/-- The operands have differently ordered alphabets and clashing names. -/
example : ∃ u, epsNfa.union evenA = some (.ok u) ∧ u.alphabet = [s 'a', s 'b'] ∧ u.states.length = 10 ∧
    u.accepts [s 'a', s 'a'] = true ∧ epsNfa.accepts [s 'a', s 'a'] = false ∧
    u.accepts [s 'b', s 'b'] = true ∧ evenA.accepts [s 'b', s 'b'] = false ∧
    u.accepts [s 'b', s 'a'] = false := by
  refine ⟨_, rfl, ?_⟩; decide

example : epsNfa.union nfaC = some (.error (epsNfa, nfaC)) := (C21_union_err _ _ epsNfa_wf nfaC_wf).1 (by
  intro h; exact absurd ((h (s 'a')).1 (by decide)) (by decide))

/-- **C23** The product construction never panics, terminates, and returns `None` exactly when the alphabets differ. -/
theorem C23_product_none_iff (ord : List Nfa.OPair → List Nfa.OPair) (hord : ∀ l, (ord l).Perm l) (n o : Nfa)
    (hn : n.WF) (ho : o.WF) (comb : Option NfaState → Option NfaState → Bool) :
    (∃ r, Nfa.product ord n o comb = some r) ∧
    (Nfa.product ord n o comb = some none ↔ ¬ SameElems n.alphabet o.alphabet) := by
  by_cases h : SameElems n.alphabet o.alphabet
  · obtain ⟨ks, g, h1, _⟩ := Nfa.product_eq hord hn ho h comb
    rw [h1]; simp [h]
  · have : alphabetEqual n.alphabet o.alphabet = false := by
      rw [← Bool.not_eq_true, alphabetEqual_iff hn.alphabet_nodup ho.alphabet_nodup]; exact h
    simp [Nfa.product, this, h]

theorem nfa_product_same {ord : List Nfa.OPair → List Nfa.OPair} (hord : ∀ l, (ord l).Perm l) {n o p : Nfa}
    (hn : n.WF) (ho : o.WF) {comb : Option NfaState → Option NfaState → Bool}
    (hp : Nfa.product ord n o comb = some (some p)) : SameElems n.alphabet o.alphabet := by
  by_contra hc
  rw [(C23_product_none_iff ord hord n o hn ho comb).2.2 hc] at hp
  cases hp

/-- **C23** The product accepts a word iff the combinator holds for some pair of outcomes of runs of the two NFAs on it,
except the pair of two `none`s. -/
theorem C23_product_lang (ord : List Nfa.OPair → List Nfa.OPair) (hord : ∀ l, (ord l).Perm l) (n o p : Nfa)
    (hn : n.WF) (ho : o.WF) (comb : Option NfaState → Option NfaState → Bool)
    (hp : Nfa.product ord n o comb = some (some p)) (w : Word) :
    p.Lang w ↔ ∃ s1 s2, n.Outcome w s1 ∧ o.Outcome w s2 ∧ (s1 ≠ none ∨ s2 ≠ none) ∧ comb s1 s2 = true := by
  have hs := nfa_product_same hord hn ho hp
  obtain ⟨ks, g, h1, hks, hg, _⟩ := Nfa.product_eq hord hn ho hs comb
  rw [h1] at hp
  simp only [Option.some.injEq] at hp
  subst hp
  rw [Nfa.prodN_lang hn ho hs hks]
  simp only [nfa_outcome_iff hn, nfa_outcome_iff ho]
  constructor
  · rintro ⟨a, b, h2, h3, h4, h5⟩
    refine ⟨_, _, ⟨a, h2, rfl⟩, ⟨b, h3, rfl⟩, ?_, h5⟩
    by_contra hc
    push Not at hc
    exact h4 (by rw [Option.map_eq_none_iff.1 hc.1, Option.map_eq_none_iff.1 hc.2])
  · rintro ⟨_, _, ⟨a, h2, rfl⟩, ⟨b, h3, rfl⟩, h4, h5⟩
    refine ⟨a, b, h2, h3, ?_, h5⟩
    intro hc
    simp only [Prod.mk.injEq] at hc
    obtain ⟨rfl, rfl⟩ := hc
    simp at h4

/-- **C23** The product is a valid NFA over the first alphabet and all its states are reachable. -/
theorem C23_product_wf (ord : List Nfa.OPair → List Nfa.OPair) (hord : ∀ l, (ord l).Perm l) (n o p : Nfa)
    (hn : n.WF) (ho : o.WF) (comb : Option NfaState → Option NfaState → Bool)
    (hp : Nfa.product ord n o comb = some (some p)) :
    p.WF ∧ p.alphabet = n.alphabet ∧ ∀ i < p.states.length, ∃ w, p.Path p.initialState w i := by
  have hs := nfa_product_same hord hn ho hp
  obtain ⟨ks, g, h1, hks, hg, _⟩ := Nfa.product_eq hord hn ho hs comb
  rw [h1] at hp
  simp only [Option.some.injEq] at hp
  subst hp
  exact ⟨Nfa.prodN_wf hn hks hg, rfl, fun i hi => Nfa.prodN_reachable hn ho hs hks hi⟩

/-- **C23** Pairs of real states: a combinator that only looks at pairs of states (rejects every pair with a `none`) makes
the product accept iff it holds for a pair of states the two NFAs can be in. -/
theorem C23_product_pairs (ord : List Nfa.OPair → List Nfa.OPair) (hord : ∀ l, (ord l).Perm l) (n o p : Nfa)
    (hn : n.WF) (ho : o.WF) (comb : Option NfaState → Option NfaState → Bool)
    (hc : ∀ s1 s2, s1 = none ∨ s2 = none → comb s1 s2 = false)
    (hp : Nfa.product ord n o comb = some (some p)) (w : Word) :
    p.Lang w ↔ ∃ (q1 q2 : Nat) (s1 s2 : NfaState), n.Path n.initialState w q1 ∧ o.Path o.initialState w q2 ∧
      n.states[q1]? = some s1 ∧ o.states[q2]? = some s2 ∧ comb (some s1) (some s2) = true := by
  rw [C23_product_lang ord hord n o p hn ho comb hp]
  constructor
  · rintro ⟨s1, s2, h1, h2, _, h4⟩
    cases s1 with
    | none => rw [hc none s2 (Or.inl rfl)] at h4; cases h4
    | some s1 => cases s2 with
      | none => rw [hc (some s1) none (Or.inr rfl)] at h4; cases h4
      | some s2 =>
        obtain ⟨q1, a1, a2⟩ := h1
        obtain ⟨q2, b1, b2⟩ := h2
        exact ⟨q1, q2, s1, s2, a1, b1, a2, b2, h4⟩
  · rintro ⟨q1, q2, s1, s2, a1, b1, a2, b2, h4⟩
    exact ⟨some s1, some s2, ⟨q1, a1, a2⟩, ⟨q2, b1, b2⟩, Or.inl (by simp), h4⟩

/-- The combinator `|s1, s2| s1.map_or(false, |s| s.accepting) || s2.map_or(false, |s| s.accepting)`. -/
def orComb (s1 s2 : Option NfaState) : Bool := (s1.map (·.accepting)).getD false || (s2.map (·.accepting)).getD false

theorem nfa_outcome_exists (n : Nfa) (w : Word) : ∀ q, (∃ r, n.Path q w r) ∨ n.OutFrom (some q) w none := by
  induction w with
  | nil => intro q; exact Or.inl ⟨q, .nil q⟩
  | cons e w ih =>
    intro q
    by_cases h : ∃ t, n.Step q e t
    · obtain ⟨t, ht⟩ := h
      rcases ih t with ⟨r, hr⟩ | hr
      · exact Or.inl ⟨r, Nfa.path_append (u := [e]).2 ⟨t, Nfa.step_path ht, hr⟩⟩
      · right
        obtain ⟨u, e', v, r, h1, h2, h3⟩ := hr
        exact ⟨e :: u, e', v, r, by rw [h1]; rfl, Nfa.path_append (u := [e]).2 ⟨t, Nfa.step_path ht, h2⟩, h3⟩
    · push Not at h
      exact Or.inr ⟨[], e, w, q, rfl, .nil q, h⟩

theorem nfa_outcome_total {n : Nfa} (hn : n.WF) (w : Word) : ∃ s, n.Outcome w s := by
  rcases nfa_outcome_exists n w n.initialState with ⟨r, hr⟩ | hr
  · exact ⟨_, (nfa_outcome_iff hn).2 ⟨some r, hr, rfl⟩⟩
  · exact ⟨none, nfa_stuck_iff.2 hr⟩

/-- **C23** With that combinator the product accepts exactly the union of the languages. -/
theorem C23_product_or (ord : List Nfa.OPair → List Nfa.OPair) (hord : ∀ l, (ord l).Perm l) (n o p : Nfa)
    (hn : n.WF) (ho : o.WF) (hp : Nfa.product ord n o orComb = some (some p)) (w : Word) :
    p.Lang w ↔ n.Lang w ∨ o.Lang w := by
  rw [C23_product_lang ord hord n o p hn ho orComb hp, nfa_lang_iff_outcome, nfa_lang_iff_outcome]
  constructor
  · rintro ⟨s1, s2, h1, h2, _, h4⟩
    unfold orComb at h4
    rw [Bool.or_eq_true] at h4
    rcases h4 with h4 | h4
    · cases s1 with
      | none => cases h4
      | some s1 => exact Or.inl ⟨s1, h1, h4⟩
    · cases s2 with
      | none => cases h4
      | some s2 => exact Or.inr ⟨s2, h2, h4⟩
  · rintro (⟨s1, h1, h2⟩ | ⟨s2, h1, h2⟩)
    · obtain ⟨s2, h3⟩ := nfa_outcome_total ho w
      exact ⟨some s1, s2, h1, h3, Or.inl (by simp), by simp [orComb, h2]⟩
    · obtain ⟨s1, h3⟩ := nfa_outcome_total hn w
      exact ⟨s1, some s2, h3, h1, Or.inr (by simp), by simp [orComb, h2]⟩

example : ∃ p, Nfa.product id epsNfa evenA orComb = some (some p) ∧ p.alphabet = [s 'a', s 'b'] ∧
    p.accepts [s 'a', s 'a'] = true ∧ p.accepts [s 'b', s 'b'] = true ∧ p.accepts [s 'b', s 'a'] = false := by
  refine ⟨_, rfl, ?_⟩; decide

example : Nfa.product id epsNfa nfaC orComb = some none :=
  (C23_product_none_iff _ (fun _ => .refl _) _ _ epsNfa_wf nfaC_wf _).2.2 (by
  intro h; exact absurd ((h (s 'a')).1 (by decide)) (by decide))

/-- **C22** `intersection` never panics, terminates, and is `None` exactly when the alphabets differ. -/
theorem C22_intersection_none_iff (ord : List Nfa.OPair → List Nfa.OPair) (hord : ∀ l, (ord l).Perm l) (n o : Nfa)
    (hn : n.WF) (ho : o.WF) :
    (∃ r, Nfa.intersection ord n o = some r) ∧
    (Nfa.intersection ord n o = some none ↔ ¬ SameElems n.alphabet o.alphabet) :=
  C23_product_none_iff ord hord n o hn ho _

/-- **C22** The intersection is a valid NFA over the first alphabet accepting a word iff both operands accept it. -/
theorem C22_intersection_lang (ord : List Nfa.OPair → List Nfa.OPair) (hord : ∀ l, (ord l).Perm l) (n o p : Nfa)
    (hn : n.WF) (ho : o.WF) (hp : Nfa.intersection ord n o = some (some p)) :
    p.WF ∧ p.alphabet = n.alphabet ∧ (∀ w, p.Lang w ↔ n.Lang w ∧ o.Lang w) ∧
      ∀ w, p.accepts w = (n.accepts w && o.accepts w) := by
  have hl : ∀ w, p.Lang w ↔ n.Lang w ∧ o.Lang w := by
    intro w
    rw [C23_product_lang ord hord n o p hn ho _ hp, nfa_lang_iff_outcome, nfa_lang_iff_outcome]
    constructor
    · rintro ⟨s1, s2, h1, h2, _, h4⟩
      cases s1 with
      | none => cases h4
      | some s1 => cases s2 with
        | none => cases h4
        | some s2 =>
          simp only [Nfa.bothAccepting, Bool.and_eq_true] at h4
          exact ⟨⟨s1, h1, h4.1⟩, ⟨s2, h2, h4.2⟩⟩
    · rintro ⟨⟨s1, h1, h2⟩, ⟨s2, h3, h4⟩⟩
      exact ⟨some s1, some s2, h1, h3, Or.inl (by simp), by simp [Nfa.bothAccepting, h2, h4]⟩
  obtain ⟨h1, h2, _⟩ := C23_product_wf ord hord n o p hn ho _ hp
  refine ⟨h1, h2, hl, fun w => ?_⟩
  rw [Bool.eq_iff_iff, Bool.and_eq_true, C02_nfa_accepts_iff _ h1, C02_nfa_accepts_iff n hn, C02_nfa_accepts_iff o ho]
  exact hl w

example : ∃ p, Nfa.intersection List.reverse epsNfa evenA = some (some p) ∧ p.alphabet = [s 'a', s 'b'] ∧
    p.accepts [s 'a', s 'b'] = true ∧ p.accepts [s 'a', s 'a'] = false ∧ epsNfa.accepts [s 'b'] = true ∧
    p.accepts [s 'b'] = false := by
  refine ⟨_, rfl, ?_⟩; decide

/-! ## C24: the documented reading of `None` -/

/-- Accepts when the first component is `None` and the second is an accepting state. -/
def noneFirst (s1 s2 : Option NfaState) : Bool := s1.isNone && (s2.map (·.accepting)).getD false

/-- Alphabet `[a]`; from the initial state `0`, `a` leads to `0` and to the stuck state `1`. -/
def stuckNfa : Nfa :=
  ⟨[s 'a'], [⟨s '0', true, true, [], [[0, 1]]⟩, ⟨s '1', false, false, [], [[]]⟩], 0⟩

theorem stuckNfa_wf : stuckNfa.WF := Nfa.wf_of_wfB (by decide)

/-- Alphabet `[a]`; accepts everything. -/
def allNfa : Nfa := ⟨[s 'a'], [⟨s '0', true, true, [], [[0]]⟩], 0⟩

theorem allNfa_wf : allNfa.WF := Nfa.wf_of_wfB (by decide)

/-- **C24** The documented reading is false: with a combinator that holds only when the first component is `None`, the
product of two valid NFAs accepts a word on which the first NFA is in a state (it even accepts the word). -/
theorem C24_doc_claim_false : ∃ (n o p : Nfa) (w : Word), n.WF ∧ o.WF ∧
    Nfa.product id n o noneFirst = some (some p) ∧ p.Lang w ∧ n.Lang w := by
  refine ⟨stuckNfa, allNfa, _, [s 'a', s 'a'], stuckNfa_wf, allNfa_wf, rfl, ?_, ?_⟩
  · rw [← C02_nfa_accepts_iff _ (C23_product_wf id (fun _ => .refl _) _ _ _ stuckNfa_wf allNfa_wf noneFirst rfl).1]
    decide
  · rw [← C02_nfa_accepts_iff _ stuckNfa_wf]; decide

/-- **C24** What does hold for all NFAs: if a combinator holds only when the first component is `None`, every accepted word
makes *some* run of the first NFA stuck, and the second NFA has a complete run on it. Missing from the documented claim:
that *no* run of the first NFA is complete, which fails as `C24_doc_claim_false` shows. -/
theorem C24_none_means_stuck_partial (ord : List Nfa.OPair → List Nfa.OPair) (hord : ∀ l, (ord l).Perm l) (n o p : Nfa)
    (hn : n.WF) (ho : o.WF) (comb : Option NfaState → Option NfaState → Bool)
    (hc : ∀ s1 s2, comb s1 s2 = true → s1 = none)
    (hp : Nfa.product ord n o comb = some (some p)) (w : Word) (h : p.Lang w) :
    n.Stuck w ∧ ∃ q, o.Path o.initialState w q := by
  obtain ⟨s1, s2, h1, h2, h3, h4⟩ := (C23_product_lang ord hord n o p hn ho comb hp w).1 h
  have := hc _ _ h4
  subst this
  cases s2 with
  | none => simp at h3
  | some s2 =>
    obtain ⟨q, hq, _⟩ := h2
    exact ⟨h1, q, hq⟩

/-- **C24** The documented claim holds when the first NFA is deterministic apart from missing transitions (no epsilon
moves, at most one target per entry): then a stuck run means that no run is complete. Missing: all other NFAs. -/
theorem C24_deterministic_partial (ord : List Nfa.OPair → List Nfa.OPair) (hord : ∀ l, (ord l).Perm l) (n o p : Nfa)
    (hn : n.WF) (ho : o.WF) (comb : Option NfaState → Option NfaState → Bool)
    (hc : ∀ s1 s2, comb s1 s2 = true → s1 = none)
    (hdet : ∀ st ∈ n.states, st.epsilonTransitions = [] ∧ ∀ ts ∈ st.transitions, ts.length ≤ 1)
    (hp : Nfa.product ord n o comb = some (some p)) (w : Word) (h : p.Lang w) :
    ¬ ∃ q, n.Path n.initialState w q := by
  have heps : ∀ q r, n.EpsR q r → r = q := by
    intro q r hqr
    induction hqr with
    | refl => rfl
    | tail _ h2 ih =>
      obtain ⟨st, h3, h4⟩ := Nfa.mem_ep.1 h2
      rw [(hdet st (List.mem_of_getElem? h3)).1] at h4
      cases h4
  have hstep : ∀ q e t t', n.Step q e t → n.Step q e t' → t = t' := by
    rintro q e t t' ⟨i, h1, h2⟩ ⟨j, h3, h4⟩
    have hij : i = j := by
      have hlt : i < n.alphabet.length := (List.getElem?_eq_some_iff.1 h1).1
      exact (List.getElem?_inj hlt hn.alphabet_nodup).1 (h1.trans h3.symm)
    subst hij
    obtain ⟨st, ts, a1, a2, a3⟩ := Nfa.mem_tr.1 h2
    obtain ⟨st', ts', b1, b2, b3⟩ := Nfa.mem_tr.1 h4
    rw [a1] at b1; cases b1
    rw [a2] at b2; cases b2
    have hl := (hdet st (List.mem_of_getElem? a1)).2 ts (List.mem_of_getElem? a2)
    match ts, hl, a3, b3 with
    | [x], _, a3, b3 => rw [List.mem_singleton.1 a3, List.mem_singleton.1 b3]
  have hpath : ∀ (u : Word) q r r', n.Path q u r → n.Path q u r' → r = r' := by
    intro u
    induction u with
    | nil =>
      intro q r r' h1 h2
      rw [heps _ _ (Nfa.path_nil_iff.1 h1), heps _ _ (Nfa.path_nil_iff.1 h2)]
    | cons e u ih =>
      intro q r r' h1 h2
      obtain ⟨x, y, a1, a2, a3⟩ := Nfa.path_cons_iff.1 h1
      obtain ⟨x', y', b1, b2, b3⟩ := Nfa.path_cons_iff.1 h2
      rw [heps _ _ a1] at a2
      rw [heps _ _ b1] at b2
      rw [hstep _ _ _ _ a2 b2] at a3
      exact ih _ _ _ a3 b3
  obtain ⟨⟨u, v, e, q, rfl, h2, h3⟩, _⟩ := C24_none_means_stuck_partial ord hord n o p hn ho comb hc hp w h
  rintro ⟨r, hr⟩
  obtain ⟨q', h4, h5⟩ := Nfa.path_append.1 hr
  obtain ⟨x, y, a1, a2, a3⟩ := Nfa.path_cons_iff.1 h5
  rw [heps _ _ a1, hpath _ _ _ _ h4 h2] at a2
  exact h3 ⟨y, nfa_move_iff.2 a2⟩

/-- The hypotheses are met with an accepted word: `onlyA` accepts just `a` and is stuck on `aa`. -/
def onlyA : Nfa :=
  ⟨[s 'a'], [⟨s '0', true, false, [], [[1]]⟩, ⟨s '1', false, true, [], [[]]⟩], 0⟩

example : onlyA.WF ∧ (∀ st ∈ onlyA.states, st.epsilonTransitions = [] ∧ ∀ ts ∈ st.transitions, ts.length ≤ 1) ∧
    ∃ p, Nfa.product id onlyA allNfa noneFirst = some (some p) ∧ p.accepts [s 'a', s 'a'] = true ∧
      p.accepts [s 'a'] = false := by
  refine ⟨Nfa.wf_of_wfB (by decide), by decide, _, rfl, by decide⟩

/-- One state which accepts everything over a given alphabet. -/
private def loopAll (al : List Str) : Nfa := ⟨al, [⟨s '0', true, true, [], al.map (fun _ => [0])⟩], 0⟩

private theorem loopAll_wf {al : List Str} (h : al.Nodup) : (loopAll al).WF := by
  refine ⟨h, by simp [loopAll], by simp [loopAll], ?_, ?_, by simp [loopAll], ?_⟩
  · intro st hst ts hts t ht
    simp only [loopAll, List.mem_singleton] at hst
    subst hst
    simp only [List.mem_map] at hts
    obtain ⟨_, _, rfl⟩ := hts
    simpa [loopAll] using ht
  · intro st hst t ht
    simp only [loopAll, List.mem_singleton] at hst
    subst hst
    cases ht
  · intro i st hi
    match i with
    | 0 =>
      simp only [loopAll, List.getElem?_cons_zero, Option.some.injEq] at hi
      subst hi
      simp [loopAll]
    | i + 1 => simp [loopAll] at hi

private theorem loopAll_path {n : Nfa} {q : Nat} {w : Word} {r : Nat} (h : n.Path q w r) : (loopAll n.alphabet).Path 0 w 0 := by
  induction h with
  | nil => exact .nil _
  | eps _ _ _ ih => exact ih
  | step _ h2 _ _ _ ih =>
    refine .step (s := ⟨s '0', true, true, [], n.alphabet.map (fun _ => [0])⟩) (ts := [0]) rfl h2 ?_ (by simp) ih
    have hi := (List.getElem?_eq_some_iff.1 h2).1
    simp [List.getElem?_replicate, hi]

/-- **C24** Exactly when the documented claim holds for a first NFA, with whatever second NFA, combinator and word: when no word has both
a run that gets stuck and a complete one. -/
theorem C24_doc_claim_iff (n : Nfa) (hn : n.WF) :
    (∀ (ord : List Nfa.OPair → List Nfa.OPair) (o p : Nfa) (comb : Option NfaState → Option NfaState → Bool) (w : Word),
      (∀ l, (ord l).Perm l) → o.WF → (∀ s1 s2, comb s1 s2 = true → s1 = none) →
      Nfa.product ord n o comb = some (some p) → p.Lang w → ¬ ∃ q, n.Path n.initialState w q) ↔
    ∀ w, n.Stuck w → ¬ ∃ q, n.Path n.initialState w q := by
  constructor
  · rintro hall w hs ⟨q, hq⟩
    have hid : ∀ l : List Nfa.OPair, (id l).Perm l := fun _ => .refl _
    have hwf := loopAll_wf hn.alphabet_nodup
    have hsame : SameElems n.alphabet (loopAll n.alphabet).alphabet := fun _ => Iff.rfl
    obtain ⟨⟨r, hr⟩, hnone⟩ := C23_product_none_iff id hid n (loopAll n.alphabet) hn hwf noneFirst
    cases r with
    | none => exact hnone.1 hr hsame
    | some p =>
      refine hall id (loopAll n.alphabet) p noneFirst w hid hwf ?_ hr ?_ ⟨q, hq⟩
      · intro s1 s2 h
        cases s1 with
        | none => rfl
        | some _ => cases h
      · refine (C23_product_lang id hid _ _ p hn hwf noneFirst hr w).2 ⟨none, some _, hs, ⟨0, loopAll_path hq, rfl⟩, Or.inr (by simp), rfl⟩
  · intro h ord o p comb w hord ho hc hp hl
    exact h w (C24_none_means_stuck_partial ord hord n o p hn ho comb hc hp w hl).1

/-- For `stuckNfa` the word `aa` has both kinds of runs. -/
example : ¬ ∀ w, stuckNfa.Stuck w → ¬ ∃ q, stuckNfa.Path stuckNfa.initialState w q := by
  intro h
  refine h [s 'a', s 'a'] ⟨[s 'a'], [], s 'a', 1, rfl, ?_, ?_⟩ ⟨0, ?_⟩
  · exact .step (i := 0) (t := 1) rfl rfl rfl (by decide) (.nil _)
  · rintro ⟨t, i, st, ts, h1, h2, h3, h4⟩
    cases h1
    match i with
    | 0 => cases h3; cases h4
    | i + 1 => cases h2
  · exact .step (i := 0) (t := 0) rfl rfl rfl (by decide) (.step (i := 0) (t := 0) rfl rfl rfl (by decide) (.nil _))

/-! ## Instances of the theorems of this file -/

example := C21_union_lang epsNfa evenA _ epsNfa_wf evenA_wf rfl
example := C23_product_lang List.reverse (fun l => List.reverse_perm l) Samples.epsNfa Samples.evenA _ Samples.epsNfa_wf Samples.evenA_wf
  (fun p q => p.isSome && q.isNone) rfl [Samples.s 'b', Samples.s 'a']
example := C23_product_wf List.reverse (fun l => List.reverse_perm l) Samples.epsNfa Samples.evenA _ Samples.epsNfa_wf Samples.evenA_wf
  (fun p q => p.isSome && q.isNone) rfl
example := C23_product_pairs List.reverse (fun l => List.reverse_perm l) epsNfa evenA _ epsNfa_wf evenA_wf (fun p q => p.isSome &&
  q.isSome) (by rintro _ _ (rfl | rfl) <;> simp) rfl [s 'a']
example := C22_intersection_none_iff List.reverse (fun l => List.reverse_perm l) Samples.epsNfa Samples.evenA Samples.epsNfa_wf
  Samples.evenA_wf

end Dandy
