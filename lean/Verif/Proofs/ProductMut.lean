import Verif.Model.ProductMut
import Verif.Spec.ProductMut
import Verif.Proofs.DfaProduct
import Verif.Proofs.NfaProduct
/-! # Product constructions whose combinator has a state: lemmas -/

namespace Dandy

theorem callAll_length {τ α β : Type} (f : τ → α → τ × β) : ∀ (l : List α) (t : τ), (callAll f t l).2.length = l.length
  | [], _ => rfl
  | a :: l, t => by simp [callAll, callAll_length f l]

theorem exploreMut_eq {τ σ κ : Type} [DecidableEq κ] {key : σ → κ} {succ : σ → List σ} {call : τ → σ → Option (τ × Bool)}
    (f : τ → σ → τ × Bool) :
    ∀ (k : Nat) (stack seen out out' seen' : List σ), explore key succ (fun _ => true) k stack seen out = some (some (out', seen')) →
      ∃ new, out' = out ++ new ∧ (∀ s, stack.head? = some s → new.head? = some s) ∧
        ((∀ s ∈ new, ∀ t, call t s = some (f t s)) → ∀ t outm,
          exploreMut key succ call k t stack seen outm = some ((callAll f t new).1, outm ++ new.zip (callAll f t new).2, seen'))
  | 0, _, _, _, _, _, h => by simp [explore] at h
  | k + 1, [], seen, out, out', seen', h => by
    simp only [explore, Option.some.injEq, Prod.mk.injEq] at h
    obtain ⟨rfl, rfl⟩ := h
    exact ⟨[], by simp, by simp, fun _ t outm => by simp [exploreMut, callAll]⟩
  | k + 1, s :: stack, seen, out, out', seen', h => by
    simp only [explore, if_true] at h
    obtain ⟨new, h1, _, h2⟩ := exploreMut_eq f k _ _ _ _ _ h
    refine ⟨s :: new, by rw [h1]; simp, by simp, fun hc t outm => ?_⟩
    simp only [exploreMut, hc s List.mem_cons_self t, Option.bind_eq_bind, Option.bind_some]
    rw [h2 (fun x hx => hc x (List.mem_cons_of_mem _ hx))]
    simp [callAll]

/-- Answers for distinct things are the values of a function. -/
theorem exists_answers {α γ : Type} [DecidableEq γ] (φ : α → γ) : ∀ (l : List α) (bs : List Bool), (l.map φ).Nodup → bs.length = l.length →
    ∃ c : γ → Bool, bs = l.map (fun a => c (φ a))
  | [], bs, _, h => ⟨fun _ => false, by simpa using h⟩
  | a :: l, [], _, h => by simp at h
  | a :: l, b :: bs, hn, h => by
    rw [List.map_cons, List.nodup_cons] at hn
    obtain ⟨c, hc⟩ := exists_answers φ l bs hn.2 (by simpa using h)
    refine ⟨fun x => if x = φ a then b else c x, ?_⟩
    simp only [List.map_cons, if_true, List.cons.injEq, true_and]
    rw [hc]
    apply List.map_congr_left
    intro x hx
    rw [if_neg]
    intro he
    exact hn.1 (List.mem_map.2 ⟨x, hx, he⟩)

theorem zip_self {α : Type} : ∀ l : List α, l.zip l = l.map (fun p => (p, p))
  | [] => rfl
  | a :: l => by simp [zip_self l]

theorem callAll_map {τ α β γ : Type} (f : τ → α → τ × β) (φ : γ → α) : ∀ (l : List γ) (t : τ),
    callAll f t (l.map φ) = callAll (fun t a => f t (φ a)) t l
  | [], _ => rfl
  | a :: l, t => by simp [callAll, callAll_map f φ l]

namespace Dfa
variable {d o : Dfa}

theorem state_inj (hd : d.WF) {i j : Nat} (hi : i < d.states.length) (hj : j < d.states.length) (h : d.state i = d.state j) : i = j := by
  have h1 := hd.names_nodup
  have h2 : (d.states.map (·.name))[i]? = (d.states.map (·.name))[j]? := by
    rw [List.getElem?_map, List.getElem?_map, getElem?_state hi, getElem?_state hj, h]
  exact (List.getElem?_inj (by simpa using hi) h1).1 h2

/-- The pairs, the calls and the result. -/
theorem productMut_eq (hd : d.WF) (ho : o.WF) (h : SameElems d.alphabet o.alphabet) :
    ∃ ks, ProdKeys d o ks ∧ ks.head? = some (d.initialState, o.initialState) ∧
      ∀ {τ : Type} (f : τ → DfaState → DfaState → τ × Bool) (t : τ),
      (∃ comb : DfaState → DfaState → Bool,
        (callAll (fun t (k : Nat × Nat) => f t (d.state k.1) (o.state k.2)) t ks).2 = ks.map (fun k => comb (d.state k.1) (o.state k.2))) ∧
      ∀ comb : DfaState → DfaState → Bool,
      (callAll (fun t (k : Nat × Nat) => f t (d.state k.1) (o.state k.2)) t ks).2 = ks.map (fun k => comb (d.state k.1) (o.state k.2)) →
      ∀ ord : List (Nat × Nat) → List (Nat × Nat), (∀ l, (ord l).Perm l) → ∃ g, (∀ j ∈ ks, ∀ k ∈ ks, g j = g k → j = k) ∧
        product ord d o comb = some (some (prodOf d o comb ks g)) ∧
        productMut ord d o f t = some ((callAll (fun t (k : Nat × Nat) => f t (d.state k.1) (o.state k.2)) t ks).1,
          some (prodOf d o comb ks g)) := by
  obtain ⟨out, seen, he, hev, hks, hall⟩ := product_eq_out hd ho h
  refine ⟨out.map pairKey, hks, ?_, fun {τ} f t => ?_⟩
  · obtain ⟨new, h1, h2, _⟩ := exploreMut_eq (call := fun (_ : Unit) _ => none) (fun t _ => (t, true)) _ _ _ _ _ _ he
    rw [List.nil_append] at h1
    subst h1
    have := h2 _ rfl
    rw [List.head?_map, this]
    rfl
  obtain ⟨new, h1, h2, h3⟩ := exploreMut_eq (call := fun t (p : DfaEval × DfaEval) => do
    return f t (← p.1.currentState) (← p.2.currentState)) (fun t p => f t (d.state p.1.cur) (o.state p.2.cur)) _ _ _ _ _ _ he
  rw [List.nil_append] at h1
  subst h1
  have h3 := h3 (by
    intro p hp t
    obtain ⟨t1, t2, _, _, rfl⟩ := hev p hp
    simp [DfaEval.currentState]) t []
  have hf : callAll (fun t (p : DfaEval × DfaEval) => f t (d.state p.1.cur) (o.state p.2.cur)) t out =
      callAll (fun t (k : Nat × Nat) => f t (d.state k.1) (o.state k.2)) t (out.map pairKey) := by
    rw [callAll_map]; rfl
  rw [hf, List.nil_append] at h3
  obtain ⟨c, hc⟩ := exists_answers (fun k : Nat × Nat => (d.state k.1, o.state k.2)) (out.map pairKey)
    (callAll (fun t (k : Nat × Nat) => f t (d.state k.1) (o.state k.2)) t (out.map pairKey)).2 (by
      apply List.Nodup.map_on _ hks.nodup
      intro j hj k hk hjk
      obtain ⟨p, hp, rfl⟩ := List.mem_map.1 hj
      obtain ⟨r, hr, rfl⟩ := List.mem_map.1 hk
      obtain ⟨t1, t2, l1, l2, rfl⟩ := hev p hp
      obtain ⟨u1, u2, m1, m2, rfl⟩ := hev r hr
      simp only [pairKey, DfaEval.currentStateIdx, Prod.mk.injEq] at hjk ⊢
      exact ⟨state_inj hd l1 m1 hjk.1, state_inj ho l2 m2 hjk.2⟩) (by rw [callAll_length])
  refine ⟨⟨fun a b => c (a, b), hc⟩, fun comb hc ord hord => ?_⟩
  · obtain ⟨g, g1, g2, _⟩ := hall comb _ rfl ord hord
    refine ⟨g, g2, g1, ?_⟩
    unfold product at g1
    unfold productMut
    rw [(alphabetEqual_iff hd.alphabet_nodup ho.alphabet_nodup).2 h] at g1 ⊢
    simp only [Bool.not_true, Bool.false_eq_true, if_false] at g1 ⊢
    rw [he] at g1
    rw [h3]
    simp only at g1
    rw [mapM_some (g := fun p => (pairKey p, comb (d.state (pairKey p).1) (o.state (pairKey p).2), (pairSucc d.alphabet p).map pairKey))] at g1
    · have hz : (out.zip (callAll (fun t (k : Nat × Nat) => f t (d.state k.1) (o.state k.2)) t (out.map pairKey)).2).map
          (fun x => (pairKey x.1, x.2, (pairSucc d.alphabet x.1).map pairKey)) =
          out.map (fun p => (pairKey p, comb (d.state (pairKey p).1) (o.state (pairKey p).2), (pairSucc d.alphabet p).map pairKey)) := by
        rw [hc, List.map_map, List.zip_map_right, List.map_map]
        rw [zip_self, List.map_map]
        rfl
      simp only [Option.bind_eq_bind, Option.bind_some, Option.pure_def, hz] at g1 ⊢
      simp only [Option.bind_eq_some_iff, Option.some.injEq] at g1 ⊢
      obtain ⟨i, g3, st, g4, g5⟩ := g1
      exact ⟨i, g3, st, g4, by rw [g5]⟩
    · intro p hp
      obtain ⟨t1, t2, _, _, rfl⟩ := hev p hp
      simp [DfaEval.currentState, pairKey, DfaEval.currentStateIdx]

end Dfa

namespace Nfa
variable {n o : Nfa}

theorem state_inj (hn : n.WF) {i j : Nat} (hi : i < n.states.length) (hj : j < n.states.length) (h : n.state i = n.state j) : i = j := by
  have h2 : (n.states.map (·.name))[i]? = (n.states.map (·.name))[j]? := by
    rw [List.getElem?_map, List.getElem?_map, getElem?_state hi, getElem?_state hj, h]
  exact (List.getElem?_inj (by simpa using hi) hn.names_nodup).1 h2

theorem keys_bound (hn : n.WF) (ho : o.WF) (hs : SameElems n.alphabet o.alphabet) {ks : List OPair} (hks : NProdKeys n o ks) {k : OPair}
    (hk : k ∈ ks) : PBound n o k := by
  have hr := (hks.mem_iff k).1 hk
  clear hk
  induction hr with
  | refl => exact ⟨fun q hq => by cases hq; exact hn.init_lt, fun q hq => by cases hq; exact ho.init_lt⟩
  | tail _ h ih => exact psucc_bound hn ho hs ih h

theorem opt_inj (hn : n.WF) {a b : Option Nat} (ha : ∀ q, a = some q → q < n.states.length) (hb : ∀ q, b = some q → q < n.states.length)
    (h : a.map n.state = b.map n.state) : a = b := by
  cases a with
  | none => cases b with
    | none => rfl
    | some b => cases h
  | some a => cases b with
    | none => cases h
    | some b =>
      simp only [Option.map_some, Option.some.injEq] at h
      rw [state_inj hn (ha _ rfl) (hb _ rfl) h]

/-- The pairs, the calls and the result. -/
theorem productMut_eq (hn : n.WF) (ho : o.WF) (hs : SameElems n.alphabet o.alphabet) :
    ∃ ks, NProdKeys n o ks ∧ ks.head? = some (pinit n o) ∧
      ∀ {τ : Type} (f : τ → Option NfaState → Option NfaState → τ × Bool) (t : τ),
      (∃ comb : Option NfaState → Option NfaState → Bool,
        (callAll (fun t (k : OPair) => f t (k.1.map n.state) (k.2.map o.state)) t ks).2 = ks.map (fun k => comb (k.1.map n.state) (k.2.map o.state))) ∧
      ∀ comb : Option NfaState → Option NfaState → Bool,
      (callAll (fun t (k : OPair) => f t (k.1.map n.state) (k.2.map o.state)) t ks).2 = ks.map (fun k => comb (k.1.map n.state) (k.2.map o.state)) →
      ∀ ord : List OPair → List OPair, (∀ l, (ord l).Perm l) → ∃ g, (∀ j ∈ ks, ∀ k ∈ ks, g j = g k → j = k) ∧
        product ord n o comb = some (some (prodN n o comb ks g)) ∧
        productMut ord n o f t = some ((callAll (fun t (k : OPair) => f t (k.1.map n.state) (k.2.map o.state)) t ks).1,
          some (prodN n o comb ks g)) := by
  obtain ⟨out, seen, he, hks, hall⟩ := product_eq_out hn ho hs
  refine ⟨out, hks, ?_, fun {τ} f t => ?_⟩
  · obtain ⟨new, h1, h2, _⟩ := exploreMut_eq (call := fun (_ : Unit) _ => none) (fun t _ => (t, true)) _ _ _ _ _ _ he
    rw [List.nil_append] at h1
    subst h1
    exact h2 _ rfl
  obtain ⟨new, h1, h2, h3⟩ := exploreMut_eq (call := fun t (p : OPair) => some (f t (p.1.map n.state) (p.2.map o.state)))
    (fun t p => f t (p.1.map n.state) (p.2.map o.state)) _ _ _ _ _ _ he
  rw [List.nil_append] at h1
  subst h1
  have h3 := h3 (fun _ _ _ => rfl) t []
  rw [List.nil_append] at h3
  obtain ⟨c, hc⟩ := exists_answers (fun k : OPair => (k.1.map n.state, k.2.map o.state)) out
    (callAll (fun t (k : OPair) => f t (k.1.map n.state) (k.2.map o.state)) t out).2 (by
      apply List.Nodup.map_on _ hks.nodup
      intro j hj k hk hjk
      have b1 := keys_bound hn ho hs hks hj
      have b2 := keys_bound hn ho hs hks hk
      rw [Prod.mk.injEq] at hjk
      exact Prod.ext (opt_inj hn b1.1 b2.1 hjk.1) (opt_inj ho b1.2 b2.2 hjk.2)) (by rw [callAll_length])
  refine ⟨⟨fun a b => c (a, b), hc⟩, fun comb hc ord hord => ?_⟩
  obtain ⟨g, g1, g2, _⟩ := hall comb _ rfl ord hord
  refine ⟨g, g2, g1, ?_⟩
  unfold product at g1
  unfold productMut
  rw [(alphabetEqual_iff hn.alphabet_nodup ho.alphabet_nodup).2 hs] at g1 ⊢
  simp only [Bool.not_true, Bool.false_eq_true, if_false] at g1 ⊢
  rw [alphabetTranslation_eq (fun e he => (hs e).1 he)] at g1 ⊢
  simp only [Option.bind_eq_bind, Option.bind_some, Option.pure_def] at g1 ⊢
  have he' : explore id (fun p => (pairRow n o (n.alphabet.map (fun e => o.alphabet.idxOf e)) p).flatten ++ pairEps n o p)
      (fun _ => true) ((n.states.length + 1) * (o.states.length + 1) + 1)
      [(some n.initialState, some o.initialState)] [(some n.initialState, some o.initialState)] [] =
      some (some (out, seen)) := he
  have h3' : exploreMut id (fun p => (pairRow n o (n.alphabet.map (fun e => o.alphabet.idxOf e)) p).flatten ++ pairEps n o p)
      (fun t (p : OPair) => some (f t (p.1.map n.state) (p.2.map o.state))) ((n.states.length + 1) * (o.states.length + 1) + 1) t
      [(some n.initialState, some o.initialState)] [(some n.initialState, some o.initialState)] [] =
      some ((callAll (fun t p => f t (p.1.map n.state) (p.2.map o.state)) t out).1,
        out.zip (callAll (fun t p => f t (p.1.map n.state) (p.2.map o.state)) t out).2, seen) := h3
  rw [he'] at g1
  rw [h3']
  have hz : (out.zip (callAll (fun t (k : OPair) => f t (k.1.map n.state) (k.2.map o.state)) t out).2).map
      (fun x => (x.1, x.2, pairRow n o (n.alphabet.map (fun e => o.alphabet.idxOf e)) x.1, pairEps n o x.1)) =
      out.map (fun p => (p, comb (p.1.map n.state) (p.2.map o.state), pairRow n o (n.alphabet.map (fun e => o.alphabet.idxOf e)) p, pairEps n o p)) := by
    rw [hc, List.zip_map_right, List.map_map, zip_self, List.map_map]
    rfl
  simp only [Option.bind_some, hz] at g1 ⊢
  simp only [Option.bind_eq_some_iff, Option.some.injEq] at g1 ⊢
  obtain ⟨i, g3, st, g4, g5⟩ := g1
  exact ⟨i, g3, st, g4, by rw [g5]⟩

end Nfa
end Dandy
