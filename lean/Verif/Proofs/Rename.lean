import Verif.Spec.Rename
import Verif.Proofs.Reproducible
/-! # Other letters, other names: lemmas -/

namespace Dandy

section general
variable {f g h : Str → Str}

theorem revGetFrom_map {α β : Type} [DecidableEq α] [DecidableEq β] {f : α → β} (hf : Function.Injective f) (l : List α) (e : α) (i : Nat) :
    revGetFrom i (l.map f) (f e) = revGetFrom i l e := by
  induction l generalizing i with
  | nil => rfl
  | cons a l ih =>
    simp only [List.map_cons, revGetFrom, ih, hf.eq_iff]

theorem revGet_map {α β : Type} [DecidableEq α] [DecidableEq β] {f : α → β} (hf : Function.Injective f) (l : List α) (e : α) :
    revGet (l.map f) (f e) = revGet l e := revGetFrom_map hf l e 0

theorem alphabetEqual_map (hf : Function.Injective f) (a b : List Str) :
    alphabetEqual (a.map f) (b.map f) = alphabetEqual a b := by
  unfold alphabetEqual
  simp only [List.length_map, List.all_map, Function.comp_def, List.mem_map_of_injective hf]

theorem mapM_map_comm {α β γ δ : Type} (p : α → β) (q : γ → δ) (F : α → Option γ) (G : β → Option δ)
    (h : ∀ a, G (p a) = (F a).map q) (l : List α) : (l.map p).mapM G = (l.mapM F).map (List.map q) := by
  induction l with
  | nil => simp
  | cons a l ih =>
    rw [List.map_cons, List.mapM_cons, List.mapM_cons, h, ih]
    cases F a <;> simp
    cases l.mapM F <;> simp

end general

namespace Dfa
variable {f g h : Str → Str}

/-- A state with another name. -/
def _root_.Dandy.DfaState.rename (g : Str → Str) (s : DfaState) : DfaState := { s with name := g s.name }

theorem rename_states (d : Dfa) : (d.rename f g).states = d.states.map (DfaState.rename g) := rfl

theorem rename_state (hg : g [] = []) (d : Dfa) (i : Nat) : (d.rename f g).state i = (d.state i).rename g := by
  unfold state
  rw [rename_states, List.getD_eq_getElem?_getD, List.getD_eq_getElem?_getD, List.getElem?_map]
  cases d.states[i]? with
  | some s => rfl
  | none =>
    show (default : DfaState) = DfaState.rename g default
    simp only [DfaState.rename]
    change _ = ({ (default : DfaState) with name := g [] } : DfaState)
    rw [hg]; rfl

theorem rename_length (d : Dfa) : (d.rename f g).states.length = d.states.length := by simp [rename]

/-- An evaluator of the automaton with other letters and names. -/
def _root_.Dandy.DfaEval.rename (f g : Str → Str) (ev : DfaEval) : DfaEval := { ev with dfa := ev.dfa.rename f g }

theorem rename_new (d : Dfa) : DfaEval.new (d.rename f g) = (DfaEval.new d).rename f g := rfl

theorem rename_step (hf : Function.Injective f) (hg : g [] = []) (ev : DfaEval) (e : Str) :
    (ev.rename f g).step (f e) = ((ev.step e).1.rename f g, (ev.step e).2.map (DfaState.rename g)) := by
  unfold DfaEval.step
  have hr : revGet (ev.rename f g).dfa.alphabet (f e) = revGet ev.dfa.alphabet e := revGet_map hf _ _
  rw [hr]
  have hu : (ev.rename f g).unknown = ev.unknown := rfl
  rw [hu]
  cases ev.unknown with
  | true => rfl
  | false =>
    simp only [Bool.false_eq_true, if_false]
    cases revGet ev.dfa.alphabet e with
    | none => rfl
    | some i =>
      simp only [DfaEval.rename, rename_state hg, Option.map_some]
      rfl

theorem rename_tryForEach (hf : Function.Injective f) (hg : g [] = []) (ev : DfaEval) (w : List Str) :
    (ev.rename f g).tryForEach (w.map f) = ((ev.tryForEach w).1.rename f g, (ev.tryForEach w).2) := by
  induction w generalizing ev with
  | nil => rfl
  | cons e w ih =>
    simp only [List.map_cons, DfaEval.tryForEach]
    rw [rename_step hf hg]
    rcases hs : ev.step e with ⟨ev', _ | s⟩
    · rfl
    · exact ih ev'

theorem rename_isAccepting (hg : g [] = []) (ev : DfaEval) : (ev.rename f g).isAccepting = ev.isAccepting := by
  unfold DfaEval.isAccepting DfaEval.currentState
  have hu : (ev.rename f g).unknown = ev.unknown := rfl
  rw [hu]
  cases ev.unknown with
  | true => rfl
  | false =>
    simp only [Bool.false_eq_true, if_false, DfaEval.rename, rename_state hg]
    rfl

theorem rename_accepts (hf : Function.Injective f) (hg : g [] = []) (d : Dfa) (w : List Str) :
    (d.rename f g).accepts (w.map f) = d.accepts w := by
  unfold accepts DfaEval.stepMultiple
  rw [rename_new, rename_tryForEach hf hg]
  rcases (DfaEval.new d).tryForEach w with ⟨ev', _ | s⟩
  · exact rename_isAccepting (ev := { ev' with unknown := true }) hg
  · exact rename_isAccepting hg ev'

theorem rename_invert (d : Dfa) : (d.rename f g).invert = d.invert.rename f g := by
  simp [invert, rename, Function.comp_def]

/-- Evaluators of an automaton and of the automaton with other letters and names. -/
def RenEv (f g : Str → Str) (d : Dfa) (a b : DfaEval) : Prop := a.dfa = d ∧ b = a.rename f g

theorem step_dfa (ev : DfaEval) (e : Str) : (ev.step e).1.dfa = ev.dfa := by
  unfold DfaEval.step
  split
  · rfl
  · split <;> rfl

theorem pairSucc_ren (hf : Function.Injective f) (hg : g [] = []) {al : List Str} {d o : Dfa}
    {a b : DfaEval × DfaEval} (h : RenEv f g d a.1 b.1 ∧ RenEv f g o a.2 b.2) :
    List.Forall₂ (fun a b => RenEv f g d a.1 b.1 ∧ RenEv f g o a.2 b.2) (pairSucc al a) (pairSucc (al.map f) b) := by
  obtain ⟨⟨h1, h2⟩, h3, h4⟩ := h
  unfold pairSucc
  rw [List.map_map, List.forall₂_map_left_iff, List.forall₂_map_right_iff]
  refine List.forall₂_same.2 (fun e _ => ⟨⟨?_, ?_⟩, ?_, ?_⟩)
  · rw [step_dfa, h1]
  · simp only [Function.comp_apply, h2, rename_step hf hg]
  · rw [step_dfa, h3]
  · simp only [Function.comp_apply, h4, rename_step hf hg]

theorem pair_explore (hf : Function.Injective f) (hg : g [] = []) (d o : Dfa) {ok ok' : DfaEval × DfaEval → Bool}
    (hok : ∀ a b, RenEv f g d a.1 b.1 ∧ RenEv f g o a.2 b.2 → ok a = ok' b) :
    SR (SR (fun p q => List.Forall₂ (fun a b => RenEv f g d a.1 b.1 ∧ RenEv f g o a.2 b.2) p.1 q.1 ∧
        List.Forall₂ (fun a b => RenEv f g d a.1 b.1 ∧ RenEv f g o a.2 b.2) p.2 q.2))
      (explore pairKey (pairSucc d.alphabet) ok (pairFuel d o) [(DfaEval.new d, DfaEval.new o)] [(DfaEval.new d, DfaEval.new o)] [])
      (explore pairKey (pairSucc (d.alphabet.map f)) ok' (pairFuel (d.rename f g) (o.rename f g))
        [(DfaEval.new (d.rename f g), DfaEval.new (o.rename f g))] [(DfaEval.new (d.rename f g), DfaEval.new (o.rename f g))] []) := by
  have hfu : pairFuel (d.rename f g) (o.rename f g) = pairFuel d o := by unfold pairFuel; rw [rename_length, rename_length]
  rw [hfu]
  have h0 : List.Forall₂ (fun a b => RenEv f g d a.1 b.1 ∧ RenEv f g o a.2 b.2) [(DfaEval.new d, DfaEval.new o)]
      [(DfaEval.new (d.rename f g), DfaEval.new (o.rename f g))] := .cons ⟨⟨rfl, rfl⟩, rfl, rfl⟩ .nil
  refine explore_rel ?_ (fun a b hab => pairSucc_ren hf hg hab) hok _ h0 h0 .nil
  rintro ⟨a1, a2⟩ ⟨b1, b2⟩ ⟨⟨_, h1⟩, _, h2⟩
  dsimp only at h1 h2
  subst h1 h2
  rfl

theorem rename_equivalentTo (hf : Function.Injective f) (hg : g [] = []) (d o : Dfa) :
    (d.rename f g).equivalentTo (o.rename f g) = d.equivalentTo o := by
  unfold equivalentTo
  have ha : alphabetEqual (d.rename f g).alphabet (o.rename f g).alphabet = alphabetEqual d.alphabet o.alphabet :=
    alphabetEqual_map hf _ _
  rw [ha]
  split
  · rfl
  · have hx := pair_explore hf hg d o (ok := fun p => p.1.isAccepting == p.2.isAccepting)
      (ok' := fun p => p.1.isAccepting == p.2.isAccepting) (by
        rintro ⟨a1, a2⟩ ⟨b1, b2⟩ ⟨⟨_, h1⟩, _, h2⟩
        dsimp only at h1 h2 ⊢
        subst h1 h2
        rw [rename_isAccepting hg, rename_isAccepting hg])
    dsimp only
    have hal : (d.rename f g).alphabet = d.alphabet.map f := rfl
    rw [hal]
    rcases hx with ⟨e1, e2⟩ | ⟨x, y, e1, e2, ⟨rfl, rfl⟩ | ⟨p, q, rfl, rfl, h1, h2⟩⟩ <;> rw [e1, e2]

theorem rename_reachable (hg : g [] = []) (d : Dfa) : (d.rename f g).reachableStateIdx = d.reachableStateIdx := by
  unfold reachableStateIdx
  simp only [rename_state hg, rename_length]
  rfl

theorem rename_removeStates (d : Dfa) (rm : List Nat) :
    (d.rename f g).removeStates rm = (d.removeStates rm).map (Dfa.rename f g) := by
  unfold removeStates
  have h1 : (d.rename f g).initialState = d.initialState := rfl
  simp only [h1, rename_states, vecRemoveAll_map, List.length_map, Option.bind_eq_bind]
  cases binarySearch (rm.insertionSort (· ≤ ·)) d.initialState with
  | ok i => rfl
  | error i =>
    simp only [Option.bind_some]
    cases vecRemoveAll (rm.insertionSort (· ≤ ·)).reverse d.states with
    | none => rfl
    | some st =>
      simp only [Option.map_some, Option.bind_some]
      cases vecRemoveAll (rm.insertionSort (· ≤ ·)).reverse (List.range d.states.length) with
      | none => rfl
      | some old =>
        simp only [Option.bind_some]
        rw [mapM_map_comm (DfaState.rename g) (DfaState.rename g)
          (fun s => (s.transitions.mapM (fun t => (binarySearch old t).toOption)).bind fun tr => pure { s with transitions := tr })]
        · cases st.mapM (fun s => (s.transitions.mapM (fun t => (binarySearch old t).toOption)).bind
            fun tr => pure { s with transitions := tr }) with
          | none => rfl
          | some st' => rfl
        · intro s
          simp only [DfaState.rename]
          cases s.transitions.mapM (fun t => (binarySearch old t).toOption) <;> rfl

theorem rename_unreachable (hg : g [] = []) (d : Dfa) : (d.rename f g).unreachableStateIdx = d.unreachableStateIdx := by
  unfold unreachableStateIdx; rw [rename_reachable hg, rename_length]

theorem rename_removeUnreachable (hg : g [] = []) (ord : List Nat → List Nat) (d : Dfa) :
    (d.rename f g).removeUnreachableStates ord = (d.removeUnreachableStates ord).map (Dfa.rename f g) := by
  unfold removeUnreachableStates
  rw [rename_unreachable hg]
  cases d.unreachableStateIdx with
  | none => rfl
  | some u => exact rename_removeStates d _

theorem rename_preImage (hg : g [] = []) (d : Dfa) (a : List Nat) (c : Nat) : (d.rename f g).preImage a c = d.preImage a c := by
  unfold preImage
  simp only [rename_state hg, rename_length]
  rfl

theorem rename_hopcroftSymbols (hg : g [] = []) (d : Dfa) (a cs : List Nat) (pw) :
    hopcroftSymbols (d.rename f g) a cs pw = hopcroftSymbols d a cs pw := by
  induction cs generalizing pw with
  | nil => rfl
  | cons c cs ih => simp only [hopcroftSymbols, rename_preImage hg, ih]

theorem rename_hopcroftLoop (hg : g [] = []) (d : Dfa) (k : Nat) (p w) :
    hopcroftLoop (d.rename f g) k p w = hopcroftLoop d k p w := by
  induction k generalizing p w with
  | zero => rfl
  | succ k ih =>
    simp only [hopcroftLoop, rename_hopcroftSymbols hg, ih]
    have : (d.rename f g).alphabet.length = d.alphabet.length := by simp [rename]
    rw [this]

theorem rename_classes (hg : g [] = []) (d : Dfa) :
    (d.rename f g).stateEquivalenceClassesIdx = d.stateEquivalenceClassesIdx := by
  unfold stateEquivalenceClassesIdx
  simp only [rename_state hg, rename_length, rename_hopcroftLoop hg]
  rfl

theorem rename_remap (d : Dfa) (m : Nat → Option Nat) :
    (d.rename f g).remapTransitions m = (d.remapTransitions m).rename f g := by
  simp [remapTransitions, rename, Function.comp_def]

theorem rename_setInitial (st : List DfaState) (i : Nat) :
    setInitial (st.map (DfaState.rename g)) i = (setInitial st i).map (DfaState.rename g) := by
  unfold setInitial
  apply List.ext_getElem?
  intro j
  simp only [List.getElem?_modify, List.getElem?_map]
  cases st[j]? with
  | none => rfl
  | some s => by_cases h : i = j <;> simp [h, DfaState.rename]

theorem rename_merge (hg : g [] = []) (ord ordK : List Nat → List Nat) (d : Dfa) :
    (d.rename f g).mergeNondistinguishableStates ord ordK = (d.mergeNondistinguishableStates ord ordK).map (Dfa.rename f g) := by
  unfold mergeNondistinguishableStates
  rw [rename_classes hg]
  cases d.stateEquivalenceClassesIdx with
  | none => rfl
  | some cs =>
    simp only [Option.bind_eq_bind, Option.bind_some]
    rw [← rename_removeStates]
    congr 1
    rw [rename_remap]
    have h1 : (d.rename f g).initialState = d.initialState := rfl
    rw [h1]
    cases (cs.flatMap (classPairs ord)).lookup d.initialState with
    | none => rfl
    | some i =>
      simp only [rename_states, rename_setInitial]
      rfl

theorem rename_minimize (hg : g [] = []) (u m k : List Nat → List Nat) (d : Dfa) :
    (d.rename f g).minimize u m k = (d.minimize u m k).map (Dfa.rename f g) := by
  unfold minimize
  rw [rename_removeUnreachable hg]
  cases d.removeUnreachableStates u with
  | none => rfl
  | some e => exact rename_merge hg m k e

theorem rename_toNfa (d : Dfa) : (d.rename f g).toNfa = d.toNfa.rename f g := by
  simp [toNfa, rename, Nfa.rename, Function.comp_def, DfaState.toNfaState]

/-- Other letters: the product. -/
theorem letters_product (hf : Function.Injective f) (ord : List (Nat × Nat) → List (Nat × Nat)) (d o : Dfa)
    (comb : DfaState → DfaState → Bool) :
    product ord (d.rename f id) (o.rename f id) comb = (product ord d o comb).map (Option.map (Dfa.rename f id)) := by
  unfold product
  have ha : alphabetEqual (d.rename f id).alphabet (o.rename f id).alphabet = alphabetEqual d.alphabet o.alphabet :=
    alphabetEqual_map hf _ _
  rw [ha]
  split
  · rfl
  · have hx := pair_explore (g := id) hf rfl d o (ok := fun _ => true) (ok' := fun _ => true) (fun _ _ _ => rfl)
    dsimp only
    have hal : (d.rename f id).alphabet = d.alphabet.map f := rfl
    rw [hal]
    have hst : ∀ (e : Dfa) i, (e.rename f id).state i = e.state i := fun e i => rename_state rfl e i
    rcases hx with ⟨e1, e2⟩ | ⟨x, y, e1, e2, ⟨rfl, rfl⟩ | ⟨p, q, rfl, rfl, h1, h2⟩⟩ <;> rw [e1, e2]
    · rfl
    · rfl
    · obtain ⟨p1, p2⟩ := p
      obtain ⟨q1, q2⟩ := q
      dsimp only at h1 h2 ⊢
      have hk : ∀ a b, (RenEv f id d a.1 b.1 ∧ RenEv f id o a.2 b.2) → pairKey a = pairKey b := by
        rintro ⟨a1, a2⟩ ⟨b1, b2⟩ ⟨⟨_, h1⟩, _, h2⟩
        dsimp only at h1 h2
        subst h1 h2
        rfl
      have hsd : (q1.mapM fun p => do
            let s1 ← p.1.currentState
            let s2 ← p.2.currentState
            pure (pairKey p, comb s1 s2, (pairSucc (d.alphabet.map f) p).map pairKey)) =
          (p1.mapM fun p => do
            let s1 ← p.1.currentState
            let s2 ← p.2.currentState
            pure (pairKey p, comb s1 s2, (pairSucc d.alphabet p).map pairKey)) := by
        refine (mapM_rel h1 ?_).symm
        intro a b hab
        rw [hk a b hab, map_key_rel hk (pairSucc_ren hf rfl hab)]
        obtain ⟨a1, a2⟩ := a
        obtain ⟨b1, b2⟩ := b
        obtain ⟨⟨_, h3⟩, _, h4⟩ := hab
        dsimp only at h3 h4 ⊢
        subst h3 h4
        simp only [DfaEval.currentState, DfaEval.rename, hst]
      rw [hsd, map_key_rel hk h2]
      simp only [hst]
      have hi : ∀ e : Dfa, (e.rename f id).initialState = e.initialState := fun _ => rfl
      simp only [hi, Option.bind_eq_bind, Option.map_bind]
      congr 1
      funext sd
      simp only [Function.comp_apply, Option.map_bind]
      congr 1
      funext i
      congr 1
      funext st
      simp only [Function.comp_apply, Option.pure_def, Option.map_some, rename, id]
      simp
end Dfa
end Dandy
