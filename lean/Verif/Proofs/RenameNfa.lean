import Verif.Proofs.Rename
import Verif.Model.Words
import Verif.Model.Regex
/-! # Other letters, other names: lemmas on NFAs -/

namespace Dandy

/-- A state with another name. -/
def NfaState.rename (g : Str → Str) (s : NfaState) : NfaState := { s with name := g s.name }

theorem getD_rename {g : Str → Str} (hg : g [] = []) (l : List NfaState) (i : Nat) :
    (l.map (NfaState.rename g)).getD i default = (l.getD i default).rename g := by
  rw [List.getD_eq_getElem?_getD, List.getD_eq_getElem?_getD, List.getElem?_map]
  cases l[i]? with
  | some s => rfl
  | none =>
    show (default : NfaState) = NfaState.rename g default
    change _ = ({ (default : NfaState) with name := g [] } : NfaState)
    rw [hg]; rfl

theorem modify_rename (g : Str → Str) (l : List NfaState) (i : Nat) (F : NfaState → NfaState)
    (hF : ∀ s, F (s.rename g) = (F s).rename g) :
    (l.map (NfaState.rename g)).modify i F = (l.modify i F).map (NfaState.rename g) := by
  apply List.ext_getElem?
  intro j
  simp only [List.getElem?_modify, List.getElem?_map]
  cases l[j]? with
  | none => rfl
  | some s => by_cases h : i = j <;> simp [h, hF]

theorem map_name_rename (g : Str → Str) (l : List NfaState) :
    (l.map (NfaState.rename g)).map (·.name) = (l.map (·.name)).map g := by
  simp [NfaState.rename, Function.comp_def]

namespace Nfa
variable {f g h : Str → Str}

theorem rename_states (n : Nfa) : (n.rename f g).states = n.states.map (NfaState.rename g) := rfl

theorem rename_state (hg : g [] = []) (n : Nfa) (i : Nat) : (n.rename f g).state i = (n.state i).rename g :=
  getD_rename hg _ _

theorem rename_length (n : Nfa) : (n.rename f g).states.length = n.states.length := by simp [rename]

theorem rename_closureRound (hg : g [] = []) (n : Nfa) (cur : List Nat) : (n.rename f g).closureRound cur = n.closureRound cur := by
  unfold closureRound
  simp only [rename_state hg]
  rfl

theorem rename_includeClosure (hg : g [] = []) (n : Nfa) (k : Nat) (cur : List Nat) :
    (n.rename f g).includeClosure k cur = n.includeClosure k cur := by
  induction k generalizing cur with
  | zero => rfl
  | succ k ih => simp only [includeClosure, rename_closureRound hg, ih]

/-- An evaluator of the automaton with other letters and names. -/
def _root_.Dandy.NfaEval.rename (f g : Str → Str) (ev : NfaEval) : NfaEval := { ev with nfa := ev.nfa.rename f g }

theorem rename_new (hg : g [] = []) (n : Nfa) : NfaEval.new (n.rename f g) = (NfaEval.new n).rename f g := by
  unfold NfaEval.new
  rw [rename_includeClosure hg, rename_length]
  rfl

theorem rename_step (hf : Function.Injective f) (hg : g [] = []) (ev : NfaEval) (e : Str) :
    (ev.rename f g).step (f e) = ((ev.step e).1.rename f g, (ev.step e).2) := by
  unfold NfaEval.step
  have hr : revGet (ev.rename f g).nfa.alphabet (f e) = revGet ev.nfa.alphabet e := revGet_map hf _ _
  rw [hr]
  cases revGet ev.nfa.alphabet e with
  | none => rfl
  | some i =>
    simp only [NfaEval.rename, rename_state hg, rename_includeClosure hg, rename_length]
    rfl

theorem rename_tryForEach (hf : Function.Injective f) (hg : g [] = []) (ev : NfaEval) (w : List Str) :
    (ev.rename f g).tryForEach (w.map f) = ((ev.tryForEach w).1.rename f g, (ev.tryForEach w).2) := by
  induction w generalizing ev with
  | nil => rfl
  | cons e w ih =>
    simp only [List.map_cons, NfaEval.tryForEach]
    rw [rename_step hf hg]
    rcases hs : ev.step e with ⟨ev', _ | s⟩
    · rfl
    · exact ih ev'

theorem rename_isAccepting (hg : g [] = []) (ev : NfaEval) : (ev.rename f g).isAccepting = ev.isAccepting := by
  unfold NfaEval.isAccepting
  simp only [NfaEval.rename, rename_state hg]
  rfl

theorem rename_accepts (hf : Function.Injective f) (hg : g [] = []) (n : Nfa) (w : List Str) :
    (n.rename f g).accepts (w.map f) = n.accepts w := by
  unfold accepts NfaEval.stepMultiple
  rw [rename_new hg, rename_tryForEach hf hg]
  rcases (NfaEval.new n).tryForEach w with ⟨ev', _ | s⟩
  · exact rename_isAccepting (ev := { ev' with unknown := true }) hg
  · exact rename_isAccepting hg ev'

theorem step_nfa (ev : NfaEval) (e : Str) : (ev.step e).1.nfa = ev.nfa := by
  unfold NfaEval.step
  split <;> rfl

/-- Evaluators of an automaton and of the automaton with other letters and names. -/
def RenEv (f g : Str → Str) (n : Nfa) (a b : NfaEval) : Prop := a.nfa = n ∧ b = a.rename f g

theorem renEv_new (hg : g [] = []) (n : Nfa) : RenEv f g n (NfaEval.new n) (NfaEval.new (n.rename f g)) :=
  ⟨rfl, rename_new hg n⟩

theorem pairSucc_ren (hf : Function.Injective f) (hg : g [] = []) {al : List Str} {d o : Nfa}
    {a b : NfaEval × NfaEval} (h : RenEv f g d a.1 b.1 ∧ RenEv f g o a.2 b.2) :
    List.Forall₂ (fun a b => RenEv f g d a.1 b.1 ∧ RenEv f g o a.2 b.2) (pairSucc al a) (pairSucc (al.map f) b) := by
  obtain ⟨⟨h1, h2⟩, h3, h4⟩ := h
  unfold pairSucc
  rw [List.map_map, List.forall₂_map_left_iff, List.forall₂_map_right_iff]
  refine List.forall₂_same.2 (fun e _ => ⟨⟨?_, ?_⟩, ?_, ?_⟩)
  · rw [step_nfa, h1]
  · simp only [Function.comp_apply, h2, rename_step hf hg]
  · rw [step_nfa, h3]
  · simp only [Function.comp_apply, h4, rename_step hf hg]

theorem stepAll_ren (hf : Function.Injective f) (hg : g [] = []) {n : Nfa} {a b : NfaEval} (h : RenEv f g n a b) :
    List.Forall₂ (RenEv f g n) a.stepAll b.stepAll := by
  obtain ⟨h1, rfl⟩ := h
  unfold NfaEval.stepAll
  have : (a.rename f g).nfa.alphabet = a.nfa.alphabet.map f := rfl
  rw [this, List.map_map, List.forall₂_map_left_iff, List.forall₂_map_right_iff]
  refine List.forall₂_same.2 (fun e _ => ⟨?_, ?_⟩)
  · rw [step_nfa, h1]
  · simp only [Function.comp_apply, rename_step hf hg]

theorem rename_equivalentTo (hf : Function.Injective f) (hg : g [] = []) (d o : Nfa) :
    (d.rename f g).equivalentTo (o.rename f g) = d.equivalentTo o := by
  unfold equivalentTo
  have ha : alphabetEqual (d.rename f g).alphabet (o.rename f g).alphabet = alphabetEqual d.alphabet o.alphabet :=
    alphabetEqual_map hf _ _
  rw [ha, rename_length, rename_length]
  split
  · rfl
  · have h0 : List.Forall₂ (fun a b => RenEv f g d a.1 b.1 ∧ RenEv f g o a.2 b.2) [(NfaEval.new d, NfaEval.new o)]
        [(NfaEval.new (d.rename f g), NfaEval.new (o.rename f g))] := .cons ⟨renEv_new hg d, renEv_new hg o⟩ .nil
    have hx := explore_rel (R := fun a b => RenEv f g d a.1 b.1 ∧ RenEv f g o a.2 b.2) (key := pairKey) (key' := pairKey)
      (ok := fun p => p.1.isAccepting == p.2.isAccepting)
      (ok' := fun p => p.1.isAccepting == p.2.isAccepting) (by
        rintro ⟨a1, a2⟩ ⟨b1, b2⟩ ⟨⟨_, h1⟩, _, h2⟩
        dsimp only at h1 h2
        subst h1 h2
        rfl) (fun a b hab => pairSucc_ren (al := d.alphabet) hf hg hab) (by
        rintro ⟨a1, a2⟩ ⟨b1, b2⟩ ⟨⟨_, h1⟩, _, h2⟩
        dsimp only at h1 h2 ⊢
        subst h1 h2
        rw [rename_isAccepting hg, rename_isAccepting hg]) (2 ^ (d.states.length + o.states.length) + 1) h0 h0 .nil
    dsimp only
    have hal : (d.rename f g).alphabet = d.alphabet.map f := rfl
    rw [hal]
    rcases hx with ⟨e1, e2⟩ | ⟨x, y, e1, e2, ⟨rfl, rfl⟩ | ⟨p, q, rfl, rfl, h1, h2⟩⟩ <;> rw [e1, e2]

theorem rename_toDfa (hf : Function.Injective f) (hg : g [] = []) (n : Nfa) :
    (n.rename f g).toDfa = n.toDfa.map (Dfa.rename f id) := by
  have hk : ∀ a b, RenEv f g n a b → a.currentStatesIdx = b.currentStatesIdx := by rintro a _ ⟨_, rfl⟩; rfl
  have hx := explore_rel (R := RenEv f g n) hk (succ := NfaEval.stepAll) (succ' := NfaEval.stepAll)
    (ok := fun _ => true) (ok' := fun _ => true) (fun a b hr => stepAll_ren hf hg hr) (fun _ _ _ => rfl) (2 ^ n.states.length + 1)
    (st := [NfaEval.new n]) (seen := [NfaEval.new n]) (out := []) (.cons (renEv_new hg n) .nil) (.cons (renEv_new hg n) .nil) .nil
  unfold toDfa
  rw [rename_length]
  dsimp only
  rcases hx with ⟨e1, e2⟩ | ⟨x, y, e1, e2, ⟨rfl, rfl⟩ | ⟨p, q, rfl, rfl, h1, h2⟩⟩
  · rw [e1, e2]; rfl
  · rw [e1, e2]; rfl
  · rw [e1, e2]
    simp only [Option.bind_eq_bind, Option.bind_some]
    rw [← map_key_rel hk h2]
    have htr : q.1.mapM (fun ev => (ev.stepAll.mapM (fun ev' => (p.2.map NfaEval.currentStatesIdx).findIdx?
          (· == ev'.currentStatesIdx))).bind (fun tr => pure (ev.currentStatesIdx, tr))) =
        p.1.mapM (fun ev => (ev.stepAll.mapM (fun ev' => (p.2.map NfaEval.currentStatesIdx).findIdx?
          (· == ev'.currentStatesIdx))).bind (fun tr => pure (ev.currentStatesIdx, tr))) := by
      refine (mapM_rel h1 ?_).symm
      intro a b hab
      rw [hk a b hab]
      congr 1
      refine mapM_rel (stepAll_ren hf hg hab) ?_
      intro a' b' hab'
      rw [hk a' b' hab']
    rw [htr, Option.map_bind]
    congr 1
    funext tr
    simp only [Function.comp_apply, Option.map_bind]
    have hst : q.2.zipIdx.mapM (fun p => (tr.lookup p.1.currentStatesIdx).bind fun tr =>
          pure ({ name := numStr p.2, initial := p.2 == 0, accepting := p.1.isAccepting, transitions := tr } : DfaState)) =
        p.2.zipIdx.mapM (fun p => (tr.lookup p.1.currentStatesIdx).bind fun tr =>
          pure ({ name := numStr p.2, initial := p.2 == 0, accepting := p.1.isAccepting, transitions := tr } : DfaState)) := by
      refine (mapM_rel (zipIdx_rel h2 0) ?_).symm
      rintro ⟨a, i⟩ ⟨b, j⟩ ⟨hab, rfl⟩
      dsimp only
      have hb : b = a.rename f g := hab.2
      rw [hk a b hab, hb, rename_isAccepting hg]
    rw [hst]
    congr 1
    funext st
    simp [Dfa.rename, rename]

theorem rename_hasEps (n : Nfa) : (n.rename f g).hasEpsilonMoves = n.hasEpsilonMoves := by
  simp [hasEpsilonMoves, rename, Function.comp_def]

theorem rename_closure (hg : g [] = []) (n : Nfa) (i : Nat) : (n.rename f g).closure i = n.closure i := by
  unfold closure
  simp only [rename_length, rename_state hg]
  rfl

theorem rename_reachable (hg : g [] = []) (n : Nfa) : (n.rename f g).reachableStateIdx = n.reachableStateIdx := by
  unfold reachableStateIdx
  simp only [rename_length, rename_state hg, rename_closure hg]
  rfl

theorem rename_unreachable (hg : g [] = []) (d : Nfa) : (d.rename f g).unreachableStateIdx = d.unreachableStateIdx := by
  unfold unreachableStateIdx; rw [rename_reachable hg, rename_length]

theorem rename_removeStates (d : Nfa) (rm : List Nat) :
    (d.rename f g).removeStates rm = (d.removeStates rm).map (Nfa.rename f g) := by
  unfold removeStates
  have h1 : (d.rename f g).initialState = d.initialState := rfl
  simp only [h1, rename_states, vecRemoveAll_map, List.length_map, Option.bind_eq_bind]
  cases binarySearch (rm.insertionSort (· ≤ ·)) d.initialState with
  | ok i => rfl
  | error i =>
    simp only [Option.bind_some]
    cases vecRemoveAll (rm.insertionSort (· ≤ ·)).reverse d.states with
    | none => rfl
    | some st =>
      simp only [Option.map_some, Option.bind_some]
      cases vecRemoveAll (rm.insertionSort (· ≤ ·)).reverse (List.range d.states.length) with
      | none => rfl
      | some old =>
        simp only [Option.bind_some]
        rw [mapM_map_comm (NfaState.rename g) (NfaState.rename g)
          (fun s : NfaState => (s.transitions.mapM (fun ts => List.mapM (fun t => (binarySearch old t).toOption) ts)).bind fun tr =>
            (s.epsilonTransitions.mapM (fun t => (binarySearch old t).toOption)).bind fun eps =>
            pure { s with transitions := tr, epsilonTransitions := eps })]
        · cases st.mapM (fun s : NfaState => (s.transitions.mapM (fun ts => List.mapM (fun t => (binarySearch old t).toOption) ts)).bind fun tr =>
            (s.epsilonTransitions.mapM (fun t => (binarySearch old t).toOption)).bind fun eps =>
            pure { s with transitions := tr, epsilonTransitions := eps }) with
          | none => rfl
          | some st' => rfl
        · intro s
          simp only [NfaState.rename]
          cases s.transitions.mapM (fun ts => ts.mapM (fun t => (binarySearch old t).toOption)) with
          | none => rfl
          | some tr =>
            simp only [Option.bind_some]
            cases s.epsilonTransitions.mapM (fun t => (binarySearch old t).toOption) <;> rfl

theorem rename_removeUnreachable (hg : g [] = []) (ord : List Nat → List Nat) (d : Nfa) :
    (d.rename f g).removeUnreachableStates ord = (d.removeUnreachableStates ord).map (Nfa.rename f g) := by
  unfold removeUnreachableStates
  rw [rename_unreachable hg]
  cases d.unreachableStateIdx with
  | none => rfl
  | some u => exact rename_removeStates d _

theorem deadPass_rename (l : List NfaState) (k : Nat) (dead : List Nat) :
    deadPass ((l.map (NfaState.rename g)).zipIdx k) dead = deadPass (l.zipIdx k) dead := by
  induction l generalizing k dead with
  | nil => rfl
  | cons s l ih => 
    simp only [List.map_cons, List.zipIdx_cons, deadPass, ih]
    rfl

theorem deadLoop_rename (l : List NfaState) (k : Nat) (dead : List Nat) :
    deadLoop (l.map (NfaState.rename g)) k dead = deadLoop l k dead := by
  induction k generalizing dead with
  | zero => rfl
  | succ k ih => simp only [deadLoop, deadPass_rename, ih]

theorem rename_rename {f' g' : Str → Str} (n : Nfa) : (n.rename f g).rename f' g' = n.rename (f' ∘ f) (g' ∘ g) := by
  simp [rename, Function.comp_def]

/-- Removing epsilon moves, other letters and other names: the results are the same up to names `h` does not tell apart. -/
theorem rename_removeEps (hg : g [] = []) (hK : (g = id ∧ h = id) ∨ h = fun _ => []) (ordT : Nat → Nat → List Nat → List Nat)
    (ordD : List Nat → List Nat) (n : Nfa) :
    ((n.rename f g).removeEpsilonMoves ordT ordD).map (Nfa.rename id h) =
      (n.removeEpsilonMoves ordT ordD).map (Nfa.rename f h) := by
  have hhg : h ∘ g = h := by
    rcases hK with ⟨rfl, rfl⟩ | rfl <;> rfl
  have hhs : ∀ l : List NfaState, (l.map (NfaState.rename g)).map (NfaState.rename h) = l.map (NfaState.rename h) := by
    intro l
    rw [List.map_map]
    apply List.map_congr_left
    intro s _
    show ({ s with name := (h ∘ g) s.name } : NfaState) = _
    rw [hhg]; rfl
  have hfin : ∀ (st st' : List NfaState) (i : Nat) (rm : List Nat), st.map (NfaState.rename h) = st'.map (NfaState.rename h) →
      (removeStates { n.rename f g with states := st, initialState := i } rm).map (Nfa.rename id h) =
        (removeStates { n with states := st', initialState := i } rm).map (Nfa.rename f h) := by
    intro st st' i rm hs
    rw [← rename_removeStates, ← rename_removeStates]
    congr 1
    show ({ alphabet := (n.alphabet.map f).map id, states := st.map (NfaState.rename h), initialState := i } : Nfa) =
      { alphabet := n.alphabet.map f, states := st'.map (NfaState.rename h), initialState := i }
    rw [hs, List.map_id]
  unfold removeEpsilonMoves
  rw [rename_hasEps]
  split
  · simp only [Option.map_some, rename_rename, hhg, Function.id_comp]
  · have hcl : (List.range (n.rename f g).states.length).filterMap (n.rename f g).closure =
        (List.range n.states.length).filterMap n.closure := by
      rw [rename_length]
      congr 1
      funext i
      exact rename_closure hg n i
    simp only [hcl]
    generalize (List.range n.states.length).filterMap n.closure = closures
    have hs1 : (n.rename f g).states.zipIdx.map (fun p => ({ p.1 with
          transitions := p.1.transitions.zipIdx.map (fun q =>
            ordT p.2 q.2 (q.1.foldl (fun set t => sextend set (closures.getD t [])) []))
          epsilonTransitions := [] } : NfaState)) =
        (n.states.zipIdx.map (fun p => ({ p.1 with
          transitions := p.1.transitions.zipIdx.map (fun q =>
            ordT p.2 q.2 (q.1.foldl (fun set t => sextend set (closures.getD t [])) []))
          epsilonTransitions := [] } : NfaState))).map (NfaState.rename g) := by
      rw [rename_states, List.zipIdx_map, List.map_map, List.map_map]
      rfl
    rw [hs1]
    generalize n.states.zipIdx.map (fun p => ({ p.1 with
          transitions := p.1.transitions.zipIdx.map (fun q =>
            ordT p.2 q.2 (q.1.foldl (fun set t => sextend set (closures.getD t [])) []))
          epsilonTransitions := [] } : NfaState)) = states1
    have hi : (n.rename f g).initialState = n.initialState := rfl
    have hal : (n.rename f g).alphabet.length = n.alphabet.length := by simp [rename]
    simp only [rename_length, hi, hal]
    rw [deadLoop_rename]
    simp only [Option.bind_eq_bind]
    cases deadLoop states1 (n.states.length + 1) [] with
    | none => rfl
    | some dead =>
      simp only [Option.bind_some]
      split
      · rw [modify_rename g states1 n.initialState (fun s => { s with initial := false }) (fun _ => rfl)]
        generalize states1.modify n.initialState (fun s => { s with initial := false }) = states2
        rw [getD_rename hg]
        have ho : (NfaState.rename g (states2.getD n.initialState default)).accepting = (states2.getD n.initialState default).accepting := rfl
        have ho' : (NfaState.rename g (states2.getD n.initialState default)).transitions = (states2.getD n.initialState default).transitions := rfl
        simp only [ho, ho', deadLoop_rename]
        generalize hod : (!(states2.getD n.initialState default).accepting &&
          (states2.getD n.initialState default).transitions.all (fun ts => ts.all (· ∈ dead))) = od
        have hacc : ∀ i, ((states2.map (NfaState.rename g)).getD i default).accepting = (states2.getD i default).accepting := by
          intro i; rw [getD_rename hg]; rfl
        have htr : ∀ i, ((states2.map (NfaState.rename g)).getD i default).transitions = (states2.getD i default).transitions := by
          intro i; rw [getD_rename hg]; rfl
        have hnm : h (if od = true then (NfaState.rename g (states2.getD n.initialState default)).name
            else freshName ((states2.map (NfaState.rename g)).map (·.name)) sNew) =
            h (if od = true then (states2.getD n.initialState default).name else freshName (states2.map (·.name)) sNew) := by
          rcases hK with ⟨rfl, rfl⟩ | rfl
          · have : NfaState.rename id = id := rfl
            rw [this, List.map_id]; rfl
          · rfl
        simp only [hacc, htr, List.length_map]
        have hend : ∀ dead' (tr : List (List Nat)) (acc : Bool) (i : Nat),
            (removeStates { n.rename f g with
              states := (states2.map (NfaState.rename g) ++ [(⟨if od = true then (NfaState.rename g (states2.getD n.initialState default)).name
                else freshName ((states2.map (NfaState.rename g)).map (·.name)) sNew, true, acc, [], tr⟩ : NfaState)]).map
                (fun s => { s with transitions := s.transitions.map (fun ts => ts.filter (· ∉ dead')) })
              initialState := i } (ordD dead')).map (Nfa.rename id h) =
            (removeStates { n with
              states := (states2 ++ [(⟨if od = true then (states2.getD n.initialState default).name
                else freshName (states2.map (·.name)) sNew, true, acc, [], tr⟩ : NfaState)]).map
                (fun s => { s with transitions := s.transitions.map (fun ts => ts.filter (· ∉ dead')) })
              initialState := i } (ordD dead')).map (Nfa.rename f h) := by
          intro dead' tr acc i
          apply hfin
          simp only [List.map_append, List.map_map]
          congr 1
          · apply List.map_congr_left
            intro s _
            show ({ s with name := (h ∘ g) s.name, transitions := _ } : NfaState) = _
            rw [hhg]; rfl
          · simp only [List.map_cons, List.map_nil, Function.comp_apply, NfaState.rename] at hnm ⊢
            simp only [List.map_map] at hnm ⊢
            rw [hnm]
        cases od with
        | false => exact hend _ _ _ _
        | true =>
          simp only [if_true]
          cases deadLoop states2 (n.states.length + 1) (sins n.initialState dead) with
          | none => rfl
          | some dead' => exact hend _ _ _ _
      · apply hfin
        simp only [List.map_map]
        apply List.map_congr_left
        intro s _
        show ({ s with name := (h ∘ g) s.name, transitions := _ } : NfaState) = _
        rw [hhg]; rfl

theorem rename_optimize (hg : g [] = []) (hK : (g = id ∧ h = id) ∨ h = fun _ => []) (ordU : List Nat → List Nat)
    (ordT : Nat → Nat → List Nat → List Nat) (ordD : List Nat → List Nat) (n : Nfa) :
    ((n.rename f g).optimize ordU ordT ordD).map (Nfa.rename id h) = (n.optimize ordU ordT ordD).map (Nfa.rename f h) := by
  unfold optimize
  rw [rename_removeUnreachable hg]
  cases n.removeUnreachableStates ordU with
  | none => rfl
  | some m => exact rename_removeEps hg hK ordT ordD m

theorem alphabetTranslation_map (hf : Function.Injective f) (a b : List Str) :
    alphabetTranslation (a.map f) (b.map f) = alphabetTranslation a b := by
  unfold alphabetTranslation
  rw [mapM_map_comm f id (fun e => b.findIdx? (e == ·))]
  · simp
  · intro e
    rw [List.findIdx?_map]
    simp only [Option.map_id_fun, id]
    congr 1
    funext x
    simp only [Function.comp_apply]
    rw [Bool.eq_iff_iff, beq_iff_eq, beq_iff_eq, hf.eq_iff]

theorem rename_remap (n : Nfa) (m : Nat → Option Nat) :
    (n.rename f g).remapTransitions m = (n.remapTransitions m).rename f g := by
  simp [remapTransitions, rename, Function.comp_def]

/-- Both outcomes of `union`. -/
def onUnion (F : Nfa → Nfa) : Except (Nfa × Nfa) Nfa → Except (Nfa × Nfa) Nfa
  | .error p => .error (F p.1, F p.2)
  | .ok n => .ok (F n)

theorem rename_union (hf : Function.Injective f) (hK : (g = id ∧ h = id) ∨ h = fun _ => []) (n o : Nfa) :
    (union (n.rename f g) (o.rename f g)).map (onUnion (Nfa.rename id h)) = (union n o).map (onUnion (Nfa.rename f h)) := by
  have hhg : h ∘ g = h := by
    rcases hK with ⟨rfl, rfl⟩ | rfl <;> rfl
  unfold union
  have ha : alphabetEqual (n.rename f g).alphabet (o.rename f g).alphabet = alphabetEqual n.alphabet o.alphabet :=
    alphabetEqual_map hf _ _
  have ht : alphabetTranslation (o.rename f g).alphabet (n.rename f g).alphabet = alphabetTranslation o.alphabet n.alphabet :=
    alphabetTranslation_map hf _ _
  rw [ha, ht]
  split
  · simp only [Option.map_some, onUnion, rename_rename, hhg, Function.id_comp]
  · cases alphabetTranslation o.alphabet n.alphabet with
    | none => rfl
    | some tr =>
      simp only [Option.bind_eq_bind, Option.bind_some, Option.pure_def, Option.map_some, Option.some.injEq]
      have ho : (if isIncreasing tr = true then o.rename f g
          else { o.rename f g with states := (o.rename f g).states.map (fun s => { s with transitions := reorderRow tr s.transitions }) }) =
          (if isIncreasing tr = true then o
          else { o with states := o.states.map (fun s => { s with transitions := reorderRow tr s.transitions }) }).rename f g := by
        split
        · rfl
        · simp [rename, Function.comp_def]
      rw [ho]
      generalize (if isIncreasing tr = true then o
          else { o with states := o.states.map (fun s => { s with transitions := reorderRow tr s.transitions }) }) = o'
      rw [rename_remap, rename_length]
      have hi : ∀ m : Nfa, (m.rename f g).initialState = m.initialState := fun _ => rfl
      have hal : (n.rename f g).alphabet.length = n.alphabet.length := by simp [rename]
      simp only [hi, hal, rename_states, ← List.map_append]
      generalize n.states ++ (o'.remapTransitions fun b => some (b + n.states.length)).states = st
      have hst : ∃ st1, (if (List.map (fun x => x.name) (List.map (NfaState.rename g) st)).dedup.length ≠ (List.map (NfaState.rename g) st).length then
            (List.map (NfaState.rename g) st).zipIdx.map (fun p => { p.1 with name := numStr (p.2 + 1) })
            else List.map (NfaState.rename g) st) = st1 ∧ st1.map (NfaState.rename h) =
          (if (List.map (fun x => x.name) st).dedup.length ≠ st.length then
            st.zipIdx.map (fun p => { p.1 with name := numStr (p.2 + 1) }) else st).map (NfaState.rename h) ∧
          h (freshName (st1.map (·.name)) sNew) = h (freshName ((if (List.map (fun x => x.name) st).dedup.length ≠ st.length then
            st.zipIdx.map (fun p => { p.1 with name := numStr (p.2 + 1) }) else st).map (·.name)) sNew) := by
        refine ⟨_, rfl, ?_⟩
        rcases hK with ⟨rfl, rfl⟩ | rfl
        · have : NfaState.rename id = id := rfl
          simp only [this, List.map_id]
          exact ⟨trivial, trivial⟩
        · refine ⟨?_, rfl⟩
          have h1 : ∀ l : List NfaState, (l.zipIdx.map (fun p => ({ p.1 with name := numStr (p.2 + 1) } : NfaState))).map
              (NfaState.rename (fun _ => [])) = l.map (NfaState.rename (fun _ => [])) := by
            intro l
            rw [List.map_map]
            have h2 : (NfaState.rename fun _ => []) ∘ (fun p : NfaState × Nat => ({ p.1 with name := numStr (p.2 + 1) } : NfaState)) =
              NfaState.rename (fun _ => []) ∘ Prod.fst := rfl
            rw [h2, ← List.map_map, List.zipIdx_map_fst]
          have h3 : ∀ l : List NfaState, (l.map (NfaState.rename g)).map (NfaState.rename (fun _ => [])) = l.map (NfaState.rename (fun _ => [])) := by
            intro l; rw [List.map_map]; rfl
          split <;> split <;> simp only [h1, h3]
      obtain ⟨st1, e1, e2, e3⟩ := hst
      rw [e1]
      generalize (if (List.map (fun x => x.name) st).dedup.length ≠ st.length then
            st.zipIdx.map (fun p => { p.1 with name := numStr (p.2 + 1) }) else st) = st2 at e2 e3
      have hm : ∀ (F : NfaState → NfaState) i, (∀ s, F (s.rename h) = (F s).rename h) → ∀ l l' : List NfaState,
          l.map (NfaState.rename h) = l'.map (NfaState.rename h) →
          (l.modify i F).map (NfaState.rename h) = (l'.modify i F).map (NfaState.rename h) := by
        intro F i hF l l' hl
        rw [← modify_rename h l i F hF, ← modify_rename h l' i F hF, hl]
      have e4 := hm (fun s => { s with initial := false }) ((o'.remapTransitions fun b => some (b + n.states.length)).initialState + n.states.length) (fun _ => rfl) _ _
        (hm (fun s => { s with initial := false }) n.initialState (fun _ => rfl) _ _ e2)
      have e5 : st1.length = st2.length := by simpa using congrArg List.length e2
      simp only [onUnion, Except.ok.injEq]
      simp only [rename, mk.injEq, List.map_id, true_and, List.length_modify]
      refine ⟨?_, e5⟩
      rw [List.map_append, List.map_append]
      have e6 : ∀ l : List NfaState, l.map (fun s => { s with name := h s.name }) = l.map (NfaState.rename h) := fun _ => rfl
      simp only [e6] at e4 ⊢
      rw [e4]
      simp only [NfaState.rename, List.map_cons, List.map_nil, e3]

/-- Other letters: the product. -/
theorem letters_product (hf : Function.Injective f) (ord : List OPair → List OPair) (n o : Nfa)
    (comb : Option NfaState → Option NfaState → Bool) :
    product ord (n.rename f id) (o.rename f id) comb = (product ord n o comb).map (Option.map (Nfa.rename f id)) := by
  unfold product
  have ha : alphabetEqual (n.rename f id).alphabet (o.rename f id).alphabet = alphabetEqual n.alphabet o.alphabet :=
    alphabetEqual_map hf _ _
  have ht : alphabetTranslation (n.rename f id).alphabet (o.rename f id).alphabet = alphabetTranslation n.alphabet o.alphabet :=
    alphabetTranslation_map hf _ _
  rw [ha, ht]
  split
  · rfl
  · have hst : ∀ (e : Nfa) i, (e.rename f id).state i = e.state i := fun e i => rename_state rfl e i
    have hst' : ∀ (e : Nfa), (e.rename f id).state = e.state := fun e => funext (hst e)
    have hl : (n.rename f id).alphabet.length = n.alphabet.length := by simp [rename]
    have hr : ∀ tr p, pairRow (n.rename f id) (o.rename f id) tr p = pairRow n o tr p := by
      intro tr p
      unfold pairRow pairTargets liveTargets
      rw [hl]
      simp only [hst]
    have he : ∀ p, pairEps (n.rename f id) (o.rename f id) p = pairEps n o p := by
      intro p
      unfold pairEps
      simp only [hst]
    have hi : ∀ e : Nfa, (e.rename f id).initialState = e.initialState := fun _ => rfl
    simp only [hr, he, hst', hi, rename_length, Option.bind_eq_bind, Option.map_bind]
    congr 1
    funext tr
    simp only [Function.comp_apply, Option.map_bind]
    congr 1
    funext r
    try simp only [Function.comp_apply, Option.map_bind]
    congr 1
    funext os
    try simp only [Function.comp_apply, Option.map_bind]
    congr 1
    funext i
    try simp only [Function.comp_apply, Option.map_bind]
    congr 1
    funext st
    simp [rename]

/-! ## Enumeration of words -/

theorem rename_reachableInOneStep (hg : g [] = []) (n : Nfa) (a b : Nat) (e : Bool) :
    WordIter.reachableInOneStep (n.rename f g) a b e = WordIter.reachableInOneStep n a b e := by
  unfold WordIter.reachableInOneStep
  simp only [rename_closure hg, rename_state hg]
  rfl

/-- An iterator on the words of the automaton with other letters and names. -/
def _root_.Dandy.WordIter.rename (f g : Str → Str) (it : WordIter) : WordIter := { it with nfa := it.nfa.rename f g }

theorem rename_iter_new (hg : g [] = []) (n : Nfa) : WordIter.new (n.rename f g) = (WordIter.new n).map (WordIter.rename f g) := by
  unfold WordIter.new
  rw [rename_hasEps]
  split
  · rfl
  · simp only [WordIter.adjacency, rename_reachableInOneStep hg, rename_length, rename_state hg, rename_hasEps, Option.map_some]
    rfl

/-- Both parts of the result of a call. -/
abbrev onIter {α : Type} (f g : Str → Str) (p : WordIter × α) : WordIter × α := (p.1.rename f g, p.2)

theorem rename_minLoop (hg : g [] = []) (it : WordIter) (m : Nat) (top : List Nat) (st : List (List Nat)) :
    (it.rename f g).minLoop m top st = it.minLoop m top st := by
  induction m generalizing top st with
  | zero => rfl
  | succ m ih =>
    have hal : (it.rename f g).nfa.alphabet.length = it.nfa.alphabet.length := by simp [WordIter.rename, rename]
    have hs : ∀ i, ((it.rename f g).nfa.state i).transitions = (it.nfa.state i).transitions := by
      intro i
      show ((it.nfa.rename f g).state i).transitions = _
      rw [rename_state hg]; rfl
    simp only [WordIter.minLoop, ih, hal, hs]
    rfl

theorem rename_minWord (hg : g [] = []) (it : WordIter) (k : Nat) :
    (it.rename f g).minWord k = (it.minWord k).map (onIter f g) := by
  unfold WordIter.minWord
  have hl : (it.rename f g).nfa.states.length = it.nfa.states.length := rename_length _
  rw [hl]
  have hit : ({ it.rename f g with adj := WordIter.generateUpTo it.nfa.states.length (it.rename f g).adj k } : WordIter) =
    ({ it with adj := WordIter.generateUpTo it.nfa.states.length it.adj k } : WordIter).rename f g := rfl
  rw [hit]
  generalize ({ it with adj := WordIter.generateUpTo it.nfa.states.length it.adj k } : WordIter) = it1
  have h1 : (it1.rename f g).stack = it1.stack := rfl
  have h2 : (it1.rename f g).adj = it1.adj := rfl
  have h3 : (it1.rename f g).finals = it1.finals := rfl
  simp only [h1, h2, h3, rename_minLoop hg, Option.bind_eq_bind]
  cases it1.stack.head? with
  | none => rfl
  | some top =>
    simp only [Option.bind_some]
    cases it1.adj[k]? with
    | none => rfl
    | some mx =>
      simp only [Option.bind_some]
      split
      · rfl
      · cases it1.minLoop k top it1.stack with
        | none => rfl
        | some r => rfl

theorem rename_nComplete (hg : g [] = []) (n : Nfa) (k s : Nat) : WordIter.nComplete (n.rename f g) k s = WordIter.nComplete n k s := by
  unfold WordIter.nComplete WordIter.succs
  simp only [rename_state hg]
  rfl

theorem rename_nextA (hg : g [] = []) (n : Nfa) (cur : List Nat) (k : Nat) : WordIter.nextA (n.rename f g) cur k = WordIter.nextA n cur k := by
  unfold WordIter.nextA WordIter.nextR
  have hal : (n.rename f g).alphabet.length = n.alphabet.length := by simp [rename]
  have hc : WordIter.nComplete (n.rename f g) k = WordIter.nComplete n k := funext (rename_nComplete hg n k)
  simp only [rename_state hg, hc, hal]
  rfl

theorem rename_nextLoop (hg : g [] = []) (w : List Nat) (i : Nat) (it : WordIter) :
    WordIter.nextLoop w i (it.rename f g) = (WordIter.nextLoop w i it).map (onIter f g) := by
  induction i generalizing it with
  | zero => rfl
  | succ i ih =>
    have h1 : (it.rename f g).stack = it.stack := rfl
    have h2 : (it.rename f g).nfa = it.nfa.rename f g := rfl
    simp only [WordIter.nextLoop, h1, h2, rename_nextA hg, Option.bind_eq_bind]
    cases it.stack.head? with
    | none => rfl
    | some cur =>
      simp only [Option.bind_some]
      cases w[i]? with
      | none => rfl
      | some x =>
        simp only [Option.bind_some]
        split
        · exact ih { it with stack := it.stack.tail }
        · cases (WordIter.nextA it.nfa cur (w.length - (i + 1))).find? (fun a => decide (a > x)) with
          | none => rfl
          | some b =>
            simp only [Option.bind_some]
            have hc : WordIter.nComplete (it.nfa.rename f g) (w.length - (i + 1)) = WordIter.nComplete it.nfa (w.length - (i + 1)) :=
              funext (rename_nComplete hg _ _)
            have hs : ∀ i, ((it.nfa.rename f g).state i).transitions = (it.nfa.state i).transitions := by
              intro i; rw [rename_state hg]; rfl
            simp only [hc, hs]
            split
            · have hw := rename_minWord (f := f) hg { it with stack := sofList ((cur.flatMap (fun i => (it.nfa.state i).transitions.getD b [])).filter
                (WordIter.nComplete it.nfa (w.length - (i + 1)))) :: it.stack } (w.length - (i + 1))
              erw [hw]
              cases WordIter.minWord { it with stack := sofList ((cur.flatMap (fun i => (it.nfa.state i).transitions.getD b [])).filter
                (WordIter.nComplete it.nfa (w.length - (i + 1)))) :: it.stack } (w.length - (i + 1)) with
              | none => rfl
              | some r => 
                obtain ⟨it', r⟩ := r
                cases r <;> rfl
            · rfl

theorem rename_cecLoop (hg : g [] = []) (c len : Nat) (it : WordIter) :
    WordIter.cecLoop c len (it.rename f g) = (WordIter.cecLoop c len it).map (WordIter.rename f g) := by
  induction c generalizing len it with
  | zero => rfl
  | succ c ih =>
    simp only [WordIter.cecLoop, Option.bind_eq_bind]
    have hw : WordIter.minWord { it.rename f g with stack := [[(it.rename f g).nfa.initialState]] } len = _ :=
      rename_minWord (f := f) hg { it with stack := [[it.nfa.initialState]] } len
    rw [hw]
    cases WordIter.minWord { it with stack := [[it.nfa.initialState]] } len with
    | none => rfl
    | some r =>
      obtain ⟨it', r⟩ := r
      cases r with
      | none => exact ih _ it'
      | some w => rfl

theorem rename_putNext (hg : g [] = []) (it : WordIter) : (it.rename f g).putNext = it.putNext.map (WordIter.rename f g) := by
  unfold WordIter.putNext
  have h1 : (it.rename f g).failed = it.failed := rfl
  have h2 : (it.rename f g).last = it.last := rfl
  have hl : (it.rename f g).nfa.states.length = it.nfa.states.length := rename_length _
  rw [h1, h2, hl]
  split
  · rfl
  · cases it.last with
    | none => exact rename_cecLoop hg _ _ it
    | some last =>
      simp only [Option.bind_eq_bind, WordIter.nextWord]
      rw [rename_nextLoop hg]
      cases WordIter.nextLoop last last.length it with
      | none => rfl
      | some r =>
        obtain ⟨it', r⟩ := r
        cases r with
        | none =>
          simp only [Option.map_some, Option.bind_some]
          have hl' : (it'.rename f g).nfa.states.length = it'.nfa.states.length := rename_length _
          rw [hl']
          exact rename_cecLoop hg _ _ it'
        | some w => rfl

theorem rename_calls (hg : g [] = []) (k : Nat) (it : WordIter) :
    WordIter.calls WordIter.next k (it.rename f g) = WordIter.calls WordIter.next k it := by
  induction k generalizing it with
  | zero => rfl
  | succ k ih =>
    simp only [WordIter.calls, WordIter.next, rename_putNext hg, Option.bind_eq_bind]
    cases it.putNext with
    | none => rfl
    | some it' =>
      simp only [Option.map_some, Option.bind_some, Option.pure_def, ih]
      rfl

theorem rename_wordComponentIndices (hg : g [] = []) (n : Nfa) (k : Nat) :
    (n.rename f g).wordComponentIndices k = n.wordComponentIndices k := by
  unfold wordComponentIndices
  rw [rename_iter_new hg]
  cases WordIter.new n with
  | none => rfl
  | some it => exact rename_calls hg k it

end Nfa

/-! ## Regular expressions -/

namespace RegexTree
variable {f : Str → Str}

/-- What is built, with other letters. -/
def Built.letters (f : Str → Str) (b : Built) : Built := { b with chars := b.chars.map f }

theorem graphemeIdx_letters (hf : Function.Injective f) (g : Str) (chars : List Str) :
    graphemeIdx (f g) (chars.map f) = ((graphemeIdx g chars).1, (graphemeIdx g chars).2.map f) := by
  unfold graphemeIdx
  simp only [List.mem_map_of_injective hf]
  split
  · simp only [Prod.mk.injEq, and_true]
    unfold List.idxOf
    rw [List.findIdx_map]
    congr 1
    funext x
    simp only [Function.comp_apply]
    rw [Bool.eq_iff_iff, beq_iff_eq, beq_iff_eq, hf.eq_iff]
  · simp

mutual

theorem treeToNfa_letters (hf : Function.Injective f) (t : RegexTree) (c : Nat) (chars : List Str) (dest : Nat) :
    treeToNfa (t.letters f) c (chars.map f) dest = (treeToNfa t c chars dest).letters f := by
  match t with
  | .seq [] => rfl
  | .seq (t :: ts) =>
    have h := seqLoop_letters hf (t :: ts) (c + 1) chars dest
    simp only [letters, lettersList, treeToNfa] at h ⊢
    rw [h]; rfl
  | .alt ts =>
    have h := altLoop_letters hf ts (c + 1) chars dest
    simp only [letters, treeToNfa]
    rw [h]; rfl
  | .rep t =>
    have h := treeToNfa_letters hf t (c + 1) chars c
    simp only [letters, treeToNfa]
    rw [h]; rfl
  | .chr (.grapheme g) =>
    simp only [letters, treeToNfa, graphemeIdx_letters hf]
    rfl
  | .chr .epsilon => rfl
  | .chr .empty => rfl

theorem seqLoop_letters (hf : Function.Injective f) (ts : List RegexTree) (c : Nat) (chars : List Str) (dest : Nat) :
    seqLoop (lettersList f ts) c (chars.map f) dest = (seqLoop ts c chars dest).letters f := by
  match ts with
  | [] => rfl
  | t :: ts =>
    have h1 := treeToNfa_letters hf t (c + 1) chars c
    have h2 := seqLoop_letters hf ts (treeToNfa t (c + 1) chars c).counter (treeToNfa t (c + 1) chars c).chars dest
    have h3 : (lettersList f ts).isEmpty = ts.isEmpty := by cases ts <;> rfl
    simp only [lettersList, seqLoop, h1, h3]
    have h4 : ((treeToNfa t (c + 1) chars c).letters f).chars = (treeToNfa t (c + 1) chars c).chars.map f := rfl
    have h5 : ((treeToNfa t (c + 1) chars c).letters f).counter = (treeToNfa t (c + 1) chars c).counter := rfl
    rw [h4, h5, h2]
    rfl

theorem altLoop_letters (hf : Function.Injective f) (ts : List RegexTree) (c : Nat) (chars : List Str) (dest : Nat) :
    altLoop (lettersList f ts) c (chars.map f) dest = ((altLoop ts c chars dest).1, (altLoop ts c chars dest).2.letters f) := by
  match ts with
  | [] => rfl
  | t :: ts =>
    have h1 := treeToNfa_letters hf t c chars dest
    have h2 := altLoop_letters hf ts (treeToNfa t c chars dest).counter (treeToNfa t c chars dest).chars dest
    simp only [lettersList, altLoop, h1]
    have h4 : ((treeToNfa t c chars dest).letters f).chars = (treeToNfa t c chars dest).chars.map f := rfl
    have h5 : ((treeToNfa t c chars dest).letters f).counter = (treeToNfa t c chars dest).counter := rfl
    rw [h4, h5, h2]
    rfl

end

theorem toNfa_letters (hf : Function.Injective f) (t : RegexTree) : toNfa (t.letters f) = (toNfa t).rename f id := by
  have h := treeToNfa_letters hf t 2 [] 0
  simp only [List.map_nil] at h
  unfold toNfa
  rw [h]
  simp only [Nfa.rename, Built.letters, List.length_map, id]
  congr 1
  rw [List.map_map]
  rfl

end RegexTree

/-! ## Automata which differ at most in names -/

/-- Without names. -/
abbrev anon : Str → Str := fun _ => []

theorem dfa_sameButNames_iff {a b : Dfa} : a.SameButNames b ↔ a.rename id anon = b.rename id anon := by
  obtain ⟨al, st, i⟩ := a
  obtain ⟨al', st', i'⟩ := b
  have key : ∀ l l' : List DfaState, List.Forall₂ (fun s t : DfaState => s.initial = t.initial ∧ s.accepting = t.accepting ∧
      s.transitions = t.transitions) l l' ↔ l.map (DfaState.rename anon) = l'.map (DfaState.rename anon) := by
    intro l
    induction l with
    | nil => intro l'; cases l' <;> simp
    | cons s l ih =>
      intro l'
      cases l' with
      | nil => simp
      | cons t l' =>
        simp only [List.forall₂_cons, List.map_cons, List.cons.injEq, ih]
        simp [DfaState.rename]
  simp only [Dfa.SameButNames, Dfa.rename, List.map_id, Dfa.mk.injEq]
  rw [key]
  constructor
  · rintro ⟨h1, h2, h3⟩; exact ⟨h1, h3, h2⟩
  · rintro ⟨h1, h3, h2⟩; exact ⟨h1, h2, h3⟩

theorem nfa_sameButNames_iff {a b : Nfa} : a.SameButNames b ↔ a.rename id anon = b.rename id anon := by
  obtain ⟨al, st, i⟩ := a
  obtain ⟨al', st', i'⟩ := b
  have key : ∀ l l' : List NfaState, List.Forall₂ (fun s t : NfaState => s.initial = t.initial ∧ s.accepting = t.accepting ∧
      s.transitions = t.transitions ∧ s.epsilonTransitions = t.epsilonTransitions) l l' ↔
      l.map (NfaState.rename anon) = l'.map (NfaState.rename anon) := by
    intro l
    induction l with
    | nil => intro l'; cases l' <;> simp
    | cons s l ih =>
      intro l'
      cases l' with
      | nil => simp
      | cons t l' =>
        simp only [List.forall₂_cons, List.map_cons, List.cons.injEq, ih]
        simp only [NfaState.rename, NfaState.mk.injEq, true_and]
        tauto
  simp only [Nfa.SameButNames, Nfa.rename, List.map_id, Nfa.mk.injEq]
  rw [key]
  constructor
  · rintro ⟨h1, h2, h3⟩; exact ⟨h1, h3, h2⟩
  · rintro ⟨h1, h3, h2⟩; exact ⟨h1, h2, h3⟩

theorem bothOr_dfa {x y : Option Dfa} (h : x.map (Dfa.rename id anon) = y.map (Dfa.rename id anon)) : BothOr Dfa.SameButNames x y := by
  cases x <;> cases y <;> simp_all [BothOr, dfa_sameButNames_iff]

theorem bothOr_nfa {x y : Option Nfa} (h : x.map (Nfa.rename id anon) = y.map (Nfa.rename id anon)) : BothOr Nfa.SameButNames x y := by
  cases x <;> cases y <;> simp_all [BothOr, nfa_sameButNames_iff]

/-- A function of automata that does not look at names. -/
theorem dfa_anon_eq {β : Type} {F : Dfa → β} (hF : ∀ d : Dfa, F (d.rename id anon) = F d) {a b : Dfa} (h : a.SameButNames b) : F a = F b := by
  rw [← hF a, ← hF b, dfa_sameButNames_iff.1 h]

/-- A function of automata that does not look at names. -/
theorem nfa_anon_eq {β : Type} {F : Nfa → β} (hF : ∀ d : Nfa, F (d.rename id anon) = F d) {a b : Nfa} (h : a.SameButNames b) : F a = F b := by
  rw [← hF a, ← hF b, nfa_sameButNames_iff.1 h]

theorem Dfa.product_sameButNames {d o d' o' : Dfa} (hd : d.WF) (ho : o.WF) (hd' : d'.WF) (ho' : o'.WF) (h1 : d.SameButNames d')
    (h2 : o.SameButNames o') (hs : SameElems d.alphabet o.alphabet) {ord ord' : List (Nat × Nat) → List (Nat × Nat)}
    (hord : ∀ l, (ord l).Perm l) (hord' : ∀ l, (ord' l).Perm l) (comb : DfaState → DfaState → Bool)
    (hc : ∀ s t s' t', s.rename anon = s'.rename anon → t.rename anon = t'.rename anon → comb s t = comb s' t') :
    ∃ p p', product ord d o comb = some (some p) ∧ product ord' d' o' comb = some (some p') ∧ p.SameButNames p' := by
  have hs' : SameElems d'.alphabet o'.alphabet := by rw [← h1.1, ← h2.1]; exact hs
  obtain ⟨out, seen, e1, b1, k1, f1⟩ := product_eq_out hd ho hs
  obtain ⟨out', seen', e1', b1', k1', f1'⟩ := product_eq_out hd' ho' hs'
  have hk : ∀ d o : Dfa, ∀ a b, (RenEv id anon d a.1 b.1 ∧ RenEv id anon o a.2 b.2) → pairKey a = pairKey b := by
    rintro d o ⟨a1, a2⟩ ⟨b1, b2⟩ ⟨⟨_, h1⟩, _, h2⟩
    dsimp only at h1 h2
    subst h1 h2
    rfl
  have x1 := pair_explore (f := id) (g := anon) Function.injective_id rfl d o (ok := fun _ => true) (ok' := fun _ => true) (fun _ _ _ => rfl)
  have x2 := pair_explore (f := id) (g := anon) Function.injective_id rfl d' o' (ok := fun _ => true) (ok' := fun _ => true) (fun _ _ _ => rfl)
  have q1 := dfa_sameButNames_iff.1 h1
  have q2 := dfa_sameButNames_iff.1 h2
  rw [e1] at x1
  rw [e1', ← q1, ← q2, ← h1.1] at x2
  have hks : out.map pairKey = out'.map pairKey := by
    rcases x1 with ⟨h, _⟩ | ⟨x, y, hx, hy, ⟨rfl, _⟩ | ⟨p, q, rfl, rfl, r1, _⟩⟩
    · cases h
    · cases hx
    cases hx
    rcases x2 with ⟨h, _⟩ | ⟨x', y', hx', hy', ⟨rfl, _⟩ | ⟨p', q', rfl, rfl, r1', _⟩⟩
    · cases h
    · cases hx'
    cases hx'
    rw [hy] at hy'
    cases hy'
    exact (map_key_rel (hk d o) r1).trans (map_key_rel (hk d' o') r1').symm
  obtain ⟨g, p1, _⟩ := f1 comb _ rfl ord hord
  obtain ⟨g', p1', _⟩ := f1' comb _ rfl ord' hord'
  refine ⟨_, _, p1, p1', ?_⟩
  rw [← hks]
  have hst : ∀ {a b : Dfa}, a.rename id anon = b.rename id anon → ∀ i, (a.state i).rename anon = (b.state i).rename anon := by
    intro a b h i
    rw [← rename_state (f := id) (g := anon) rfl a i, ← rename_state (f := id) (g := anon) rfl b i, h]
  have hnx : ∀ {a b : Dfa}, a.rename id anon = b.rename id anon → a.alphabet = b.alphabet → ∀ i e, a.nxt i e = b.nxt i e := by
    intro a b h ha i e
    have := hst h i
    have ht : (a.state i).transitions = (b.state i).transitions := by
      injection this
    unfold nxt
    rw [ha, ht]
  have hi1 : d.initialState = d'.initialState := h1.2.1
  have hi2 : o.initialState = o'.initialState := h2.2.1
  refine ⟨h1.1, ?_, ?_⟩
  · simp only [prodOf, hi1, hi2]
  · simp only [prodOf]
    rw [List.forall₂_map_left_iff, List.forall₂_map_right_iff]
    refine List.forall₂_same.2 (fun k _ => ⟨?_, ?_, ?_⟩)
    · simp only [hi1, hi2]
    · exact hc _ _ _ _ (hst q1 _) (hst q2 _)
    · simp only [h1.1, hnx q1 h1.1, hnx q2 h2.1]

theorem Nfa.product_sameButNames {n o n' o' : Nfa} (hn : n.WF) (ho : o.WF) (hn' : n'.WF) (ho' : o'.WF) (h1 : n.SameButNames n')
    (h2 : o.SameButNames o') (hs : SameElems n.alphabet o.alphabet) {ord ord' : List OPair → List OPair}
    (hord : ∀ l, (ord l).Perm l) (hord' : ∀ l, (ord' l).Perm l) (comb : Option NfaState → Option NfaState → Bool)
    (hc : ∀ s t s' t', s.map (NfaState.rename anon) = s'.map (NfaState.rename anon) →
      t.map (NfaState.rename anon) = t'.map (NfaState.rename anon) → comb s t = comb s' t') :
    ∃ p p', product ord n o comb = some (some p) ∧ product ord' n' o' comb = some (some p') ∧ p.SameButNames p' := by
  have hs' : SameElems n'.alphabet o'.alphabet := by rw [← h1.1, ← h2.1]; exact hs
  obtain ⟨out, seen, e1, _, f1⟩ := product_eq_out hn ho hs
  obtain ⟨out', seen', e1', _, f1'⟩ := product_eq_out hn' ho' hs'
  have q1 := nfa_sameButNames_iff.1 h1
  have q2 := nfa_sameButNames_iff.1 h2
  have hst : ∀ {a b : Nfa}, a.rename id anon = b.rename id anon → ∀ i, (a.state i).rename anon = (b.state i).rename anon := by
    intro a b h i
    rw [← rename_state (f := id) (g := anon) rfl a i, ← rename_state (f := id) (g := anon) rfl b i, h]
  have htr : ∀ {a b : Nfa}, a.rename id anon = b.rename id anon → ∀ i, (a.state i).transitions = (b.state i).transitions := by
    intro a b h i
    have := hst h i
    injection this
  have hep : ∀ {a b : Nfa}, a.rename id anon = b.rename id anon → ∀ i, (a.state i).epsilonTransitions = (b.state i).epsilonTransitions := by
    intro a b h i
    have := hst h i
    injection this
  have hrow : ∀ p, pairRow n o (trans n o) p = pairRow n' o' (trans n' o') p := by
    intro p
    unfold pairRow pairTargets liveTargets trans
    simp only [h1.1, h2.1, htr q1, htr q2]
  have heps : ∀ p, pairEps n o p = pairEps n' o' p := by
    intro p
    unfold pairEps
    simp only [hep q1, hep q2]
  have hinit : pinit n o = pinit n' o' := by
    have hi1 : n.initialState = n'.initialState := h1.2.1
    have hi2 : o.initialState = o'.initialState := h2.2.1
    unfold pinit; rw [hi1, hi2]
  have hsu : psucc n o = psucc n' o' := by
    funext p; unfold psucc; rw [hrow, heps]
  have hl1 : n.states.length = n'.states.length := h1.2.2.length_eq
  have hl2 : o.states.length = o'.states.length := h2.2.2.length_eq
  have hks : out = out' := by
    rw [hsu, hl1, hl2, hinit, e1'] at e1
    cases e1; rfl
  subst hks
  obtain ⟨g, p1, _⟩ := f1 comb _ rfl ord hord
  obtain ⟨g', p1', _⟩ := f1' comb _ rfl ord' hord'
  refine ⟨_, _, p1, p1', ?_⟩
  have hopt : ∀ {a b : Nfa}, a.rename id anon = b.rename id anon → ∀ i : Option Nat,
      (i.map a.state).map (NfaState.rename anon) = (i.map b.state).map (NfaState.rename anon) := by
    intro a b h i
    cases i with
    | none => rfl
    | some i => simp only [Option.map_some, hst h i]
  refine ⟨h1.1, ?_, ?_⟩
  · simp only [prodN, hinit]
  · simp only [prodN]
    rw [List.forall₂_map_left_iff, List.forall₂_map_right_iff]
    refine List.forall₂_same.2 (fun k _ => ⟨?_, ?_, ?_, ?_⟩)
    · simp only [hinit]
    · exact hc _ _ _ _ (hopt q1 _) (hopt q2 _)
    · simp only [hrow]
    · simp only [heps]

/-! ## Words -/

theorem exists_map_of_mem {f : Str → Str} {al w : List Str} (h : ∀ e ∈ w, e ∈ al.map f) : ∃ v : List Str, w = v.map f := by
  induction w with
  | nil => exact ⟨[], rfl⟩
  | cons e w ih =>
    obtain ⟨v, rfl⟩ := ih (fun e he => h e (List.mem_cons_of_mem _ he))
    obtain ⟨x, _, rfl⟩ := List.mem_map.1 (h e List.mem_cons_self)
    exact ⟨x :: v, rfl⟩

theorem Nfa.anon_calls {α : Type} {next : WordIter → Option (WordIter × Option α)}
    (h : ∀ it : WordIter, next (it.rename id anon) = (next it).map (onIter id anon)) (k : Nat) (it : WordIter) :
    WordIter.calls next k (it.rename id anon) = WordIter.calls next k it := by
  induction k generalizing it with
  | zero => rfl
  | succ k ih =>
    simp only [WordIter.calls, h, Option.bind_eq_bind]
    cases next it with
    | none => rfl
    | some r => simp only [Option.map_some, Option.bind_some, ih]

theorem Nfa.anon_wordComponents (n : Nfa) (k : Nat) : (n.rename id anon).wordComponents k = n.wordComponents k := by
  unfold wordComponents
  rw [rename_iter_new rfl]
  cases WordIter.new n with
  | none => rfl
  | some it =>
    refine anon_calls ?_ k it
    intro it
    unfold WordIter.nextComponents
    rw [rename_putNext rfl]
    cases it.putNext with
    | none => rfl
    | some it' =>
      have : (it'.rename id anon).nfa.alphabet = it'.nfa.alphabet := List.map_id _
      simp only [Option.bind_eq_bind, Option.map_some, Option.bind_some, this]
      rfl

theorem Nfa.anon_words (n : Nfa) (k : Nat) : (n.rename id anon).words k = n.words k := by
  unfold words
  rw [rename_iter_new rfl]
  cases WordIter.new n with
  | none => rfl
  | some it =>
    refine anon_calls ?_ k it
    intro it
    unfold WordIter.nextString
    rw [rename_putNext rfl]
    cases it.putNext with
    | none => rfl
    | some it' =>
      have : (it'.rename id anon).nfa.alphabet = it'.nfa.alphabet := List.map_id _
      simp only [Option.bind_eq_bind, Option.map_some, Option.bind_some, this]
      rfl

/-! ## Validity -/

theorem Dfa.letters_wf {f : Str → Str} (hf : Function.Injective f) {d : Dfa} (hd : d.WF) : (d.letters f).WF := by
  have h := hd
  obtain ⟨h1, h2, h3, h4, h5, h6⟩ := h
  have hst : (d.letters f).states = d.states := by simp [letters, rename]
  refine ⟨h1.map hf, ?_, ?_, ?_, ?_, ?_⟩
  · rw [hst]; exact h2
  · rw [hst]; simpa [letters, rename] using h3
  · rw [hst]; exact h4
  · rw [hst]; exact h5
  · rw [hst]; exact h6

theorem Nfa.letters_wf {f : Str → Str} (hf : Function.Injective f) {n : Nfa} (hn : n.WF) : (n.letters f).WF := by
  have hst : (n.letters f).states = n.states := by simp [letters, rename]
  have h := hn
  cases h
  constructor
  all_goals first
    | (rw [hst]; assumption)
    | (apply List.Nodup.map hf; assumption)
    | skip
  all_goals (rw [hst]; simpa [letters, rename])

end Dandy
