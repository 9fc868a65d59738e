import Verif.Proofs.ToDfa
import Verif.Proofs.Reproducible
import Verif.Proofs.ToNfa
import Verif.Proofs.NfaRestr
import Verif.Spec.Rearrange
/-! # What the subset construction depends on: lemmas -/

namespace Dandy

section
variable {σ τ κ κ' : Type} [DecidableEq κ] [DecidableEq κ'] {R : σ → τ → Prop} {key : σ → κ} {key' : τ → κ'}

omit [DecidableEq κ] [DecidableEq κ'] in
theorem key_mem_two (hk : ∀ a b a' b', R a b → R a' b' → (key a = key a' ↔ key' b = key' b')) {l : List σ} {l' : List τ}
    (h : List.Forall₂ R l l') {a : σ} {b : τ} (hab : R a b) : key a ∈ l.map key ↔ key' b ∈ l'.map key' := by
  induction h with
  | nil => simp
  | cons hc _ ih => rw [List.map_cons, List.map_cons, List.mem_cons, List.mem_cons, ih, hk _ _ _ _ hab hc]

omit [DecidableEq κ] [DecidableEq κ'] in
theorem idxOf_two [BEq κ] [LawfulBEq κ] [BEq κ'] [LawfulBEq κ'] (hk : ∀ a b a' b', R a b → R a' b' → (key a = key a' ↔ key' b = key' b'))
    {l : List σ} {l' : List τ} (h : List.Forall₂ R l l') {a : σ} {b : τ} (hab : R a b) :
    (l.map key).idxOf (key a) = (l'.map key').idxOf (key' b) := by
  induction h with
  | nil => simp
  | @cons x y _ _ hc _ ih =>
    have : (key x == key a) = (key' y == key' b) := by
      rw [Bool.eq_iff_iff, beq_iff_eq, beq_iff_eq]; exact hk _ _ _ _ hc hab
    rw [List.map_cons, List.map_cons, List.idxOf_cons, List.idxOf_cons, ih, this]

theorem pushNew_two (hk : ∀ a b a' b', R a b → R a' b' → (key a = key a' ↔ key' b = key' b')) {ts : List σ} {ts' : List τ}
    (h : List.Forall₂ R ts ts') {p : List σ × List σ} {p' : List τ × List τ} (h1 : List.Forall₂ R p.1 p'.1)
    (h2 : List.Forall₂ R p.2 p'.2) :
    List.Forall₂ R (pushNew key ts p).1 (pushNew key' ts' p').1 ∧ List.Forall₂ R (pushNew key ts p).2 (pushNew key' ts' p').2 := by
  induction h generalizing p p' with
  | nil => exact ⟨h1, h2⟩
  | cons h _ ih =>
    obtain ⟨p1, p2⟩ := p
    obtain ⟨p1', p2'⟩ := p'
    simp only [pushNew, key_mem_two hk h2 h]
    split
    · exact ih h1 h2
    · exact ih (.cons h h1) (forall₂_append_one h2 h)

/-- Two explorations which correspond item by item, whatever the keys and the fuel, when both come to an end. -/
theorem explore_two (hk : ∀ a b a' b', R a b → R a' b' → (key a = key a' ↔ key' b = key' b')) {succ : σ → List σ}
    {succ' : τ → List τ} {ok : σ → Bool} {ok' : τ → Bool} (hs : ∀ a b, R a b → List.Forall₂ R (succ a) (succ' b))
    (ho : ∀ a b, R a b → ok a = ok' b) (k k' : Nat) {st seen out : List σ} {st' seen' out' : List τ} (h1 : List.Forall₂ R st st')
    (h2 : List.Forall₂ R seen seen') (h3 : List.Forall₂ R out out') {x : Option (List σ × List σ)} {y : Option (List τ × List τ)}
    (hx : explore key succ ok k st seen out = some x) (hy : explore key' succ' ok' k' st' seen' out' = some y) :
    SR (fun p q => List.Forall₂ R p.1 q.1 ∧ List.Forall₂ R p.2 q.2) x y := by
  induction k generalizing k' st seen out st' seen' out' with
  | zero => simp [explore] at hx
  | succ k ih =>
    cases k' with
    | zero => simp [explore] at hy
    | succ k' =>
      cases h1 with
      | nil =>
        simp only [explore, Option.some.injEq] at hx hy
        exact Or.inr ⟨_, _, hx.symm, hy.symm, h3, h2⟩
      | cons ha hst =>
        simp only [explore] at hx hy
        rw [ho _ _ ha] at hx
        split at hx
        · rename_i hok
          rw [if_pos hok] at hy
          obtain ⟨i1, i2⟩ := pushNew_two hk (hs _ _ ha) (p := (_, _)) (p' := (_, _)) hst h2
          exact ih k' i1 i2 (forall₂_append_one h3 ha) hx hy
        · rename_i hok
          rw [if_neg hok] at hy
          simp only [Option.some.injEq] at hx hy
          exact Or.inl ⟨hx.symm, hy.symm⟩

end

namespace Nfa

/-- What the subset construction sees of an NFA is the same for both. -/
structure SameSubsets (n n' : Nfa) : Prop where
  alphabet : n.alphabet = n'.alphabet
  lang : ∀ w, n.Lang w ↔ n'.Lang w
  same : ∀ u v, Over n.alphabet u → Over n.alphabet v →
    ((∀ q, n.Path n.initialState u q ↔ n.Path n.initialState v q) ↔
      ∀ q, n'.Path n'.initialState u q ↔ n'.Path n'.initialState v q)

/-- Evaluators of both automata after the same word. -/
def AfterEv (n n' : Nfa) (a b : NfaEval) : Prop :=
  ∃ u S T, Over n.alphabet u ∧ n.IsAfter u S ∧ n'.IsAfter u T ∧ a = n.ev S ∧ b = n'.ev T

theorem isAfter_eq_iff {n : Nfa} {u v : Word} {S T : List Nat} (hS : n.IsAfter u S) (hT : n.IsAfter v T) :
    S = T ↔ ∀ q, n.Path n.initialState u q ↔ n.Path n.initialState v q := by
  constructor
  · rintro rfl q; rw [← hS.2, hT.2]
  · exact fun h => sorted_ext hS.1 hT.1 (fun x => by rw [hS.2, hT.2, h])

variable {n n' : Nfa}

theorem afterEv_new (hn : n.WF) (hn' : n'.WF) : AfterEv n n' (NfaEval.new n) (NfaEval.new n') :=
  ⟨[], n.iset, n'.iset, by simp [Over], isAfter_iset hn, isAfter_iset hn', rfl, rfl⟩

theorem afterEv_stepAll (hn : n.WF) (hn' : n'.WF) (ha : n.alphabet = n'.alphabet) {a b : NfaEval} (h : AfterEv n n' a b) :
    List.Forall₂ (AfterEv n n') a.stepAll b.stepAll := by
  obtain ⟨u, S, T, hu, hS, hT, rfl, rfl⟩ := h
  rw [stepAll_ev, stepAll_ev, ← ha, List.forall₂_map_left_iff, List.forall₂_map_right_iff]
  refine List.forall₂_same.2 (fun e he => ?_)
  obtain ⟨i, hi⟩ := revGet_exists he
  have hi' : revGet n'.alphabet e = some i := by rw [← ha]; exact hi
  refine ⟨u ++ [e], _, _, ?_, isAfter_nset hn hS hi, isAfter_nset hn' hT hi', by rw [hi]; rfl, by rw [hi]; rfl⟩
  intro x hx
  rcases List.mem_append.1 hx with hx | hx
  · exact hu x hx
  · rw [List.mem_singleton.1 hx]; exact he

theorem SameSubsets.keys (h : SameSubsets n n') (a b a' b' : NfaEval) (hab : AfterEv n n' a b) (hab' : AfterEv n n' a' b') :
    a.currentStatesIdx = a'.currentStatesIdx ↔ b.currentStatesIdx = b'.currentStatesIdx := by
  obtain ⟨u, S, T, hu, hS, hT, rfl, rfl⟩ := hab
  obtain ⟨v, S', T', hv, hS', hT', rfl, rfl⟩ := hab'
  simp only [NfaEval.currentStatesIdx]
  rw [isAfter_eq_iff hS hS', isAfter_eq_iff hT hT', h.same u v hu hv]

theorem SameSubsets.toDfa_eq (hn : n.WF) (hn' : n'.WF) (h : SameSubsets n n') : n.toDfa = n'.toDfa := by
  obtain ⟨out, seen, he, h1, _⟩ := toDfa_explore hn
  obtain ⟨out', seen', he', h1', _⟩ := toDfa_explore hn'
  rcases explore_two (R := AfterEv n n') h.keys (fun a b hab => afterEv_stepAll hn hn' h.alphabet hab) (fun _ _ _ => rfl) _ _
    (.cons (afterEv_new hn hn') .nil) (.cons (afterEv_new hn hn') .nil) .nil he he' with ⟨h2, _⟩ | ⟨p, q, hp, hq, _, hr⟩
  · cases h2
  cases hp; cases hq
  dsimp only at hr
  rw [h1, h1', Option.some.injEq]
  unfold subsetOf
  rw [Dfa.mk.injEq]
  refine ⟨h.alphabet, ?_, rfl⟩
  rw [List.zipIdx_map, List.zipIdx_map, List.map_map, List.map_map]
  refine map_key_rel (R := fun p q => AfterEv n n' p.1 q.1 ∧ p.2 = q.2) ?_ (zipIdx_rel hr 0)
  rintro ⟨a, i⟩ ⟨b, j⟩ ⟨⟨u, S, T, hu, hS, hT, rfl, rfl⟩, hij⟩
  dsimp only at hij
  subst hij
  simp only [Function.comp_apply, Prod.map_apply, id_eq, NfaEval.currentStatesIdx, DfaState.mk.injEq, true_and]
  refine ⟨?_, ?_⟩
  · rw [Bool.eq_iff_iff, ← lang_iff hS, ← lang_iff hT]; exact h.lang u
  · rw [← h.alphabet]
    refine List.map_congr_left (fun e he => ?_)
    obtain ⟨i, hi⟩ := revGet_exists he
    have hi' : revGet n'.alphabet e = some i := by rw [← h.alphabet]; exact hi
    rw [hi]
    refine idxOf_two (key := NfaEval.currentStatesIdx) (key' := NfaEval.currentStatesIdx) h.keys hr (a := n.ev (n.nset S i))
      (b := n'.ev (n'.nset T i)) ⟨u ++ [e], _, _, ?_, isAfter_nset hn hS hi, isAfter_nset hn' hT hi', rfl, rfl⟩
    intro x hx
    rcases List.mem_append.1 hx with hx | hx
    · exact hu x hx
    · rw [List.mem_singleton.1 hx]; exact he

theorem isAfter_exists (hn : n.WF) {u : Word} (hu : Over n.alphabet u) : ∃ S, n.setE n.iset u = some S ∧ n.IsAfter u S := by
  obtain ⟨S, hS⟩ := setE_exists (S := n.iset) hu
  exact ⟨S, hS, by simpa using isAfter_setE hn (isAfter_iset hn) hS⟩

/-- Two words lead the subset automaton to the same state exactly if they lead the NFA to the same set of states. -/
theorem subsetOf_same {ks : List (List Nat)} (hn : n.WF) (hks : SubsetKeys n ks) {u v : Word} (hu : Over n.alphabet u)
    (hv : Over n.alphabet v) : (subsetOf n ks).runE 0 u = (subsetOf n ks).runE 0 v ↔
      ∀ q, n.Path n.initialState u q ↔ n.Path n.initialState v q := by
  obtain ⟨h0, hmem⟩ := idxOf_iset hks
  obtain ⟨S, e1, hS⟩ := isAfter_exists hn hu
  obtain ⟨T, e2, hT⟩ := isAfter_exists hn hv
  have hu' := subsetOf_runE hks u hmem
  have hv' := subsetOf_runE hks v hmem
  rw [h0] at hu' hv'
  rw [hu'.1, hv'.1, e1, e2, Option.map_some, Option.map_some, Option.some.injEq, ← isAfter_eq_iff hS hT]
  constructor
  · intro h
    exact (List.idxOf_inj (hu'.2 S e1)).1 h
  · rintro rfl; rfl

theorem sameSubsets_of_toDfa (hn : n.WF) (hn' : n'.WF) (h : n.toDfa = n'.toDfa) : SameSubsets n n' := by
  obtain ⟨ks, h1, h2⟩ := Nfa.toDfa_eq hn
  obtain ⟨ks', h1', h2'⟩ := Nfa.toDfa_eq hn'
  have he : subsetOf n ks = subsetOf n' ks' := by rw [h1, h1'] at h; exact Option.some.inj h
  have ha : n.alphabet = n'.alphabet := congrArg Dfa.alphabet he
  refine ⟨ha, fun w => ?_, fun u v hu hv => ?_⟩
  · rw [← subsetOf_lang hn h2, he, subsetOf_lang hn' h2']
  · rw [← subsetOf_same hn h2 hu hv, he, subsetOf_same hn' h2' (by rw [← ha]; exact hu) (by rw [← ha]; exact hv)]

theorem name_unique (hn : n.WF) {p q : Nat} {s t : NfaState} (hp : n.states[p]? = some s) (hq : n.states[q]? = some t)
    (h : s.name = t.name) : p = q := by
  have m1 : (n.states.map (·.name))[p]? = some s.name := by simp [hp]
  have m2 : (n.states.map (·.name))[q]? = some s.name := by simp [hq, h]
  exact (List.getElem?_inj (by simpa using lt_of_getElem? hp) hn.names_nodup).1 (m1.trans m2.symm)

/-- After two words the same states, said with names instead of numbers. -/
theorem same_iff_inState (hn : n.WF) (u v : Word) : (∀ q, n.Path n.initialState u q ↔ n.Path n.initialState v q) ↔
    ∀ m, n.InState u m ↔ n.InState v m := by
  constructor
  · intro h m
    simp only [InState, h]
  · intro h q
    have key : ∀ u v : Word, (∀ m, n.InState u m → n.InState v m) → n.Path n.initialState u q → n.Path n.initialState v q := by
      intro u v h hq
      have hs := getElem?_state (path_lt hn hn.init_lt hq)
      obtain ⟨p, t, h1, h2, h3⟩ := h _ ⟨q, _, hq, hs, rfl⟩
      rwa [← name_unique hn h2 hs h3]
    exact ⟨key u v fun m => (h m).1, key v u fun m => (h m).2⟩

theorem sameSubsets_of_inState (hn : n.WF) (hn' : n'.WF) (ha : n.alphabet = n'.alphabet) (hl : ∀ w, n.Lang w ↔ n'.Lang w)
    (h : ∀ w m, n.InState w m ↔ n'.InState w m) : SameSubsets n n' :=
  ⟨ha, hl, fun u v _ _ => by rw [same_iff_inState hn, same_iff_inState hn']; simp only [h]⟩

theorem restr_sameSubsets {kept : List Nat} (h : RestrOk n kept) : SameSubsets (n.restr kept) n := by
  refine ⟨rfl, restr_lang h, fun u v _ _ => ?_⟩
  have hi : (n.restr kept).initialState = kept.idxOf n.initialState := rfl
  have hin : ∀ w r, n.Path n.initialState w r → r ∈ kept := by
    intro w r hr
    obtain ⟨x, _, hx, _⟩ := path_sim (n := n) (o := n) (fun a b => a ∈ kept ∧ a = b)
      (by rintro r _ t ⟨hr, rfl⟩ ht; exact ⟨t, .single ht, h.ep r hr t ht, rfl⟩)
      (by rintro r _ e t ⟨hr, rfl⟩ ⟨i, hi, ht⟩; exact ⟨t, step_path ⟨i, hi, ht⟩, h.tr r hr i t ht, rfl⟩)
      hr _ ⟨h.init, rfl⟩
    exact hx
  simp only [hi, restr_path_iff h h.init]
  constructor
  · intro hq r
    have key : ∀ u v : Word, (∀ q, (∃ r ∈ kept, q = kept.idxOf r ∧ n.Path n.initialState u r) →
        ∃ r ∈ kept, q = kept.idxOf r ∧ n.Path n.initialState v r) → n.Path n.initialState u r → n.Path n.initialState v r := by
      intro u v h hr
      obtain ⟨r', h1, h2, h3⟩ := h _ ⟨r, hin u r hr, rfl, hr⟩
      rwa [(List.idxOf_inj (hin u r hr)).1 h2]
    exact ⟨key u v fun q => (hq q).1, key v u fun q => (hq q).2⟩
  · intro hr q
    simp only [hr]

end Nfa
end Dandy
