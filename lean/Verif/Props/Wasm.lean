import Verif.Proofs.Wasm
/-! # Properties of the wasm bindings: C53, C54 -/

namespace Dandy
open Wasm
open Cli (AutomataType Automata IsTextOf Minimal)
open TableText (Name)

/-- A page with the canvas "canvas". -/
def page : Env := ⟨cl1, fun id => id == c!"canvas"⟩

/-- Orders of the hash sets. -/
def ord0 : Cli.MinOrd := ⟨id, List.reverse, id⟩

theorem ord0_valid : ord0.Valid := ⟨fun l => List.Perm.refl l, fun l => List.reverse_perm l, fun l => List.Perm.refl l⟩

/-- A session (newest call first): an expression is loaded, made an NFA and then a DFA, a table is loaded, the DFAs are compared, one is
minimized, deleted, and used after that. -/
def visit : List Call :=
  [.drawDfa 4 c!"canvas", .loadDfa c!"a\n-> x x x", .dfaToTable 3, .deleteNfa 3, .deleteDfa 3, .dfaToTable 3, .minimizeDfa 3 ord0, .regexToNfa 1,
    .checkDfaEq 3 4, .loadDfa c!"a b\n-> x y x\n * y y y", .nfaToDfa 2, .regexToNfa 1, .loadRegex c!"b*a(a|b)*"]

theorem visit_valid : ∀ c ∈ visit, c.Valid := by
  intro c hc
  simp only [visit, List.mem_cons, List.not_mem_nil, or_false] at hc
  rcases hc with rfl | rfl | rfl | rfl | rfl | rfl | rfl | rfl | rfl | rfl | rfl | rfl | rfl
  all_goals first | exact ord0_valid | trivial

/-- What the calls return. -/
theorem visit_results : (session page visit).map (fun x => x.2.map (·.2)) = some
    [.drewDfa (some ⟨[c!"a", c!"b"], [⟨c!"x", true, false, [1, 0]⟩, ⟨c!"y", false, true, [1, 1]⟩], 0⟩),
      .loaded (.error (.validate (.wrongNumberOfTransitions c!"x" 2 1))), .table none, .flag false, .flag true,
      .table (some c!"      b a \n→   1 1 3 \n  * 3 3 3 "), .flag true, .key none, .verdict (some true), .loaded (.ok 4), .key (some 3), .key (some 2),
      .loaded (.ok 1)] := by decide +kernel

/-- **C53** Handles are never given out twice: the handles created in a session, of all three kinds together, strictly increase (the
history has the newest call first), whatever has been deleted in between; 0 is not a handle. -/
theorem C53_handles_fresh (env : Env) (hcl : Segmentation env.cl) (cs : List Call) (hcs : ∀ c ∈ cs, c.Valid) (s : Store)
    (h : List (Call × Result)) (hs : session env cs = some (s, h)) :
    (h.filterMap created).Pairwise (fun newer older => older.2 < newer.2) ∧ ∀ p ∈ h.filterMap created, p.2 ≠ 0 := by
  have hi := session_inv hcl hcs hs
  exact ⟨hi.sorted, fun p hp => by have := (hi.keys p hp).1; omega⟩

example : (session page visit).map (fun x => x.2.filterMap created) = some [(.dfa, 4), (.dfa, 3), (.nfa, 2), (.regex, 1)] := by
  decide +kernel

/-- **C53** In particular a new handle differs from every handle given out before, of whatever kind. -/
theorem C53_new_handle (env : Env) (hcl : Segmentation env.cl) (c : Call) (cs : List Call) (hcs : ∀ x ∈ c :: cs, x.Valid) (s : Store)
    (h : List (Call × Result)) (r : Result) (hs : session env (c :: cs) = some (s, (c, r) :: h)) (p : AutomataType × Nat)
    (hp : created (c, r) = some p) (e : Call × Result) (he : e ∈ h) (q : AutomataType × Nat) (hq : created e = some q) : p.2 ≠ q.2 := by
  have := (C53_handles_fresh env hcl _ hcs s _ hs).1
  rw [List.filterMap_cons, hp] at this
  have := (List.pairwise_cons.1 this).1 q (List.mem_filterMap.2 ⟨e, he, hq⟩)
  omega

/-- **C54** No sequence of calls makes the bindings panic, and every call is answered. -/
theorem C54_total (env : Env) (hcl : Segmentation env.cl) : ∀ (cs : List Call), (∀ c ∈ cs, c.Valid) →
    ∃ s h, session env cs = some (s, h) ∧ h.map (·.1) = cs
  | [], _ => ⟨_, _, rfl, rfl⟩
  | c :: cs, hcs => by
    have hcs' : ∀ c ∈ cs, c.Valid := fun c hc => hcs c (List.mem_cons_of_mem _ hc)
    obtain ⟨s, h, h1, h2⟩ := C54_total env hcl cs hcs'
    obtain ⟨s', r, h3⟩ := call_total (session_inv hcl hcs' h1) (hcs c List.mem_cons_self)
    refine ⟨s', (c, r) :: h, ?_, by simp [h2]⟩
    rw [session, h1]
    simp only [Option.bind_eq_bind, Option.bind_some, h3]
    rfl

example : ∃ s h, session page visit = some (s, h) ∧ h.map (·.1) = visit := C54_total page cl1_seg visit visit_valid

/-- **C54** A call succeeds exactly when every handle it uses is live (created, of the right kind, and neither deleted nor consumed
since), and the canvas exists or the text loaded is legal. -/
theorem C54_success (env : Env) (hcl : Segmentation env.cl) (c : Call) (cs : List Call) (hcs : ∀ x ∈ c :: cs, x.Valid) (s : Store)
    (h : List (Call × Result)) (r : Result) (hs : session env (c :: cs) = some (s, (c, r) :: h)) :
    r.Success ↔ (∀ p ∈ uses c, Live h p.1 p.2) ∧ c.Needs env := by
  obtain ⟨s0, h0, r0, h1, h2, h3⟩ := session_cons hs
  cases h3
  have hi := session_inv hcl (fun c hc => hcs c (List.mem_cons_of_mem _ hc)) h1
  rw [(call_effect hcl h2).2]
  simp only [hi.live]

/-- **C54** When loading fails, the error tells the reason. -/
theorem C54_load_error (env : Env) (hcl : Segmentation env.cl) (cs : List Call) (s : Store)
    (h : List (Call × Result)) (x : LoadError) (text : Str) :
    (session env (.loadDfa text :: cs) = some (s, (.loadDfa text, .loaded (.error x)) :: h) → (reason .dfa x).Explains env.cl text .dfa) ∧
    (session env (.loadNfa text :: cs) = some (s, (.loadNfa text, .loaded (.error x)) :: h) → (reason .nfa x).Explains env.cl text .nfa) ∧
    (session env (.loadRegex text :: cs) = some (s, (.loadRegex text, .loaded (.error x)) :: h) →
      (reason .regex x).Explains env.cl text .regex) := by
  refine ⟨fun hs => ?_, fun hs => ?_, fun hs => ?_⟩ <;> obtain ⟨s0, h0, r0, h1, h2, h3⟩ := session_cons hs <;> cases h3 <;>
    simp only [call, Option.some.injEq] at h2
  · exact (loadDfa_error hcl h2).2
  · exact (loadNfa_error hcl h2).2
  · exact (loadRegex_error hcl h2).2

/-- In `visit` deleting the DFA 3 is possible, deleting it as an NFA is not, and it cannot be printed after that. -/
example : (session page (visit.drop 4)).map (fun x => x.2.head?.map (·.2)) = some (some (.flag true)) ∧
    (session page (visit.drop 3)).map (fun x => x.2.head?.map (·.2)) = some (some (.flag false)) ∧
    (session page (visit.drop 2)).map (fun x => x.2.head?.map (·.2)) = some (some (.table none)) := by decide +kernel

/-- **C54** A call that fails changes nothing: any continuation returns what it would have returned without the call. -/
theorem C54_fail_unchanged (env : Env) (hcl : Segmentation env.cl) (c : Call) (cs : List Call) (s : Store)
    (h : List (Call × Result)) (r : Result) (hs : session env (c :: cs) = some (s, (c, r) :: h)) (hf : ¬ r.Success) (next : Call) :
    session env cs = some (s, h) ∧
    (session env (next :: c :: cs)).map (fun x => x.2.head?) = (session env (next :: cs)).map (fun x => x.2.head?) := by
  obtain ⟨s0, h0, r0, h1, h2, h3⟩ := session_cons hs
  cases h3
  have := (call_effect hcl h2).1.fail hf
  subst this
  refine ⟨h1, ?_⟩
  rw [session, hs]
  rw [session.eq_2 env next cs, h1]
  simp only [Option.bind_eq_bind, Option.bind_some]
  cases call env s next with
  | none => rfl
  | some y => rfl

example : (session page (visit.drop 1)).map (fun x => x.2.head?.map (·.2)) =
    some (some (.loaded (.error (.validate (.wrongNumberOfTransitions c!"x" 2 1))))) := by decide +kernel

/-- **C54** Exactly the live handles have a meaning. -/
theorem C54_meaning (env : Env) (hcl : Segmentation env.cl) (cs : List Call) (hcs : ∀ c ∈ cs, c.Valid) (s : Store)
    (h : List (Call × Result)) (hs : session env cs = some (s, h)) (ty : AutomataType) (k : Nat) :
    (Live h ty k ↔ ∃ al L, Means env.cl h ty k al L) ∧
    ∀ al L al' L', Means env.cl h ty k al L → Means env.cl h ty k al' L' → al = al' ∧ ∀ w, L w ↔ L' w := by
  have hi := session_inv hcl hcs hs
  constructor
  · rw [hi.live]
    constructor
    · exact hi.meaning ty k
    · rintro ⟨al, L, h1⟩
      obtain ⟨a, h2, _⟩ := hi.means _ _ _ _ h1
      rw [h2]
      simp
  · intro al L al' L' h1 h2
    obtain ⟨a, e1, e2, e3⟩ := hi.means _ _ _ _ h1
    obtain ⟨b, e4, e5, e6⟩ := hi.means _ _ _ _ h2
    rw [e1] at e4
    cases e4
    exact ⟨hasAlphabet_unique e2 e5, fun w => (e3 w).symm.trans (e6 w)⟩

/-- The DFA made from the expression has a meaning, and the expression is gone. -/
example : ∃ s h, session page (visit.drop 5) = some (s, h) ∧ (∃ al L, Means cl1 h .dfa 3 al L) ∧ ¬ Live h .regex 1 := by
  have hv : ∀ c ∈ visit.drop 5, c.Valid := fun c hc => visit_valid c (List.mem_of_mem_drop hc)
  obtain ⟨s, h, h1, h2⟩ := C54_total page cl1_seg _ hv
  have hi := session_inv cl1_seg hv h1
  have e : (session page (visit.drop 5)).map (fun x => (x.1.dfas.get 3).isSome && (x.1.regexes.get 1).isNone) = some true := by
    decide +kernel
  rw [h1] at e
  simp only [Option.map_some, Option.some.injEq, Bool.and_eq_true, Option.isSome_iff_ne_none, Option.isNone_iff_eq_none] at e
  refine ⟨s, h, h1, ((C54_meaning page cl1_seg _ hv s h h1 .dfa 3).1).1 ((hi.live _ _).2 ?_), fun hl => (hi.live _ _).1 hl ?_⟩
  · exact fun h => e.1 (obj_dfa.1 h)
  · exact obj_regex.2 e.2

/-- **C54** A call does not touch what it neither minimizes nor removes: drawing or printing the object of a live handle gives the same
automaton and the same table before and after any other call. -/
theorem C54_isolated (env : Env) (hcl : Segmentation env.cl) (c : Call) (cs : List Call) (hcs : ∀ x ∈ c :: cs, x.Valid) (s : Store)
    (h : List (Call × Result)) (r : Result) (hs : session env (c :: cs) = some (s, (c, r) :: h)) (k : Nat) (canvas : Str) :
    (Live h .dfa k → removed (c, r) ≠ some (.dfa, k) → (∀ o, c ≠ .minimizeDfa k o) → ∀ q ∈ [Call.drawDfa k canvas, .dfaToTable k],
      (session env (q :: c :: cs)).map (fun x => x.2.head?) = (session env (q :: cs)).map (fun x => x.2.head?)) ∧
    (Live h .nfa k → removed (c, r) ≠ some (.nfa, k) → ∀ q ∈ [Call.drawNfa k canvas, .nfaToTable k],
      (session env (q :: c :: cs)).map (fun x => x.2.head?) = (session env (q :: cs)).map (fun x => x.2.head?)) := by
  obtain ⟨s0, h0, r0, h1, h2, h3⟩ := session_cons hs
  cases h3
  have hi := session_inv hcl (fun c hc => hcs c (List.mem_cons_of_mem _ hc)) h1
  have he := (call_effect hcl h2).1
  have same : ∀ ty, Live h ty k → removed (c, r) ≠ some (ty, k) → (∀ o, ty = .dfa → c ≠ .minimizeDfa k o) →
      s.obj ty k = s0.obj ty k := by
    intro ty hl hr hm
    have h4 : created (c, r) ≠ some (ty, k) := by
      intro h4
      have h5 := hi.lt _ _ ((hi.live _ _).1 hl)
      rw [(he.key _ _ h4).1] at h5
      exact absurd h5 (Nat.lt_irrefl _)
    rcases he.kept _ _ h4 hr with h5 | ⟨o, d, m, h5, h6, _⟩
    · exact h5
    · exact absurd h5 (hm o h6)
  have probe : ∀ q, (call env s q).map (·.2) = (call env s0 q).map (·.2) →
      (session env (q :: c :: cs)).map (fun x => x.2.head?) = (session env (q :: cs)).map (fun x => x.2.head?) := by
    intro q hq
    rw [session, hs, session.eq_2 env q cs, h1]
    simp only [Option.bind_eq_bind, Option.bind_some]
    cases e1 : call env s q with
    | none => rw [e1] at hq; cases e2 : call env s0 q with
      | none => rfl
      | some y => rw [e2] at hq; cases hq
    | some x => rw [e1] at hq; cases e2 : call env s0 q with
      | none => rw [e2] at hq; cases hq
      | some y => rw [e2] at hq; obtain ⟨a, b⟩ := x; obtain ⟨a', b'⟩ := y; cases hq; rfl
  refine ⟨fun hl hr hm q hq => probe q ?_, fun hl hr q hq => probe q ?_⟩
  · have e : s.dfas.get k = s0.dfas.get k := by
      have := same .dfa hl hr (fun o _ => hm o)
      simp only [Store.obj] at this
      exact Option.map_injective (fun _ _ e => by cases e; rfl) this
    rcases List.mem_cons.1 hq with rfl | hq
    · simp only [call, drawDfa, e, Option.map_some]
    · rw [List.mem_singleton] at hq
      subst hq
      simp only [call, dfaToTable, e]
      cases s0.dfas.get k with
      | none => rfl
      | some d => dsimp only; cases d.toTable <;> rfl
  · have e : s.nfas.get k = s0.nfas.get k := by
      have := same .nfa hl hr (fun o ho => by cases ho)
      simp only [Store.obj] at this
      exact Option.map_injective (fun _ _ e => by cases e; rfl) this
    rcases List.mem_cons.1 hq with rfl | hq
    · simp only [call, drawNfa, e, Option.map_some]
    · rw [List.mem_singleton] at hq
      subst hq
      simp only [call, nfaToTable, e]
      cases s0.nfas.get k with
      | none => rfl
      | some d => dsimp only; cases d.toTable <;> rfl

/-- Minimizing and deleting the DFA 3 does not change the DFA 4. -/
example : (session page (.drawDfa 4 c!"canvas" :: visit.drop 4)).map (fun x => x.2.head?.map (·.2)) =
    (session page (.drawDfa 4 c!"canvas" :: visit.drop 8)).map (fun x => x.2.head?.map (·.2)) := by decide +kernel

/-- **C54** `check_dfa_eq` answers whether the two handles stand for the same alphabet set and the same language. -/
theorem C54_check_dfa_eq (env : Env) (hcl : Segmentation env.cl) (cs : List Call) (hcs : ∀ x ∈ cs, x.Valid) (s : Store)
    (h : List (Call × Result)) (k l : Nat) (b : Bool)
    (hs : session env (.checkDfaEq k l :: cs) = some (s, (.checkDfaEq k l, .verdict (some b)) :: h))
    (al al' : List Str) (L L' : Word → Prop) (h1 : Means env.cl h .dfa k al L) (h2 : Means env.cl h .dfa l al' L') :
    b = true ↔ SameElems al al' ∧ ∀ w, L w ↔ L' w := by
  obtain ⟨s0, h0, r0, e1, e2, e3⟩ := session_cons hs
  cases e3
  have hi := session_inv hcl hcs e1
  obtain ⟨a1, f1, f2, f3⟩ := hi.means _ _ _ _ h1
  obtain ⟨a2, g1, g2, g3⟩ := hi.means _ _ _ _ h2
  obtain ⟨d1, f4, rfl⟩ := obj_dfa_elim f1
  obtain ⟨d2, g4, rfl⟩ := obj_dfa_elim g1
  dsimp only [call] at e2
  simp only [checkDfaEq, f4, g4] at e2
  obtain ⟨⟨b', e5⟩, e6⟩ := C11_dfa_equivalent_to d1 d2 (hi.good _ _ _ f1).1.valid (hi.good _ _ _ g1).1.valid
  rw [e5] at e2 e6
  cases e2
  have e7 : al = d1.alphabet := f2
  have e8 : al' = d2.alphabet := g2
  rw [Option.some.injEq] at e6
  rw [e6, e7, e8]
  exact and_congr_right (fun _ => forall_congr' (fun w => iff_congr (f3 w) (g3 w)))

/-- **C54** `check_nfa_eq` answers whether the two handles stand for the same alphabet set and the same language. -/
theorem C54_check_nfa_eq (env : Env) (hcl : Segmentation env.cl) (cs : List Call) (hcs : ∀ x ∈ cs, x.Valid) (s : Store)
    (h : List (Call × Result)) (k l : Nat) (b : Bool)
    (hs : session env (.checkNfaEq k l :: cs) = some (s, (.checkNfaEq k l, .verdict (some b)) :: h))
    (al al' : List Str) (L L' : Word → Prop) (h1 : Means env.cl h .nfa k al L) (h2 : Means env.cl h .nfa l al' L') :
    b = true ↔ SameElems al al' ∧ ∀ w, L w ↔ L' w := by
  obtain ⟨s0, h0, r0, e1, e2, e3⟩ := session_cons hs
  cases e3
  have hi := session_inv hcl hcs e1
  obtain ⟨a1, f1, f2, f3⟩ := hi.means _ _ _ _ h1
  obtain ⟨a2, g1, g2, g3⟩ := hi.means _ _ _ _ h2
  obtain ⟨d1, f4, rfl⟩ := obj_nfa_elim f1
  obtain ⟨d2, g4, rfl⟩ := obj_nfa_elim g1
  dsimp only [call] at e2
  simp only [checkNfaEq, f4, g4] at e2
  obtain ⟨b', e5, e6⟩ := C20_nfa_equivalent_to d1 d2 (hi.good _ _ _ f1).1.valid (hi.good _ _ _ g1).1.valid
  rw [e5] at e2
  cases e2
  have e7 : al = d1.alphabet := f2
  have e8 : al' = d2.alphabet := g2
  rw [e6, e7, e8]
  exact and_congr_right (fun _ => forall_congr' (fun w => iff_congr (f3 w) (g3 w)))

example : (session page (visit.drop 8)).map (fun x => x.2.head?.map (·.2)) = some (some (.verdict (some true))) ∧
    (session page (.checkNfaEq 3 2 :: .dfaToNfa 2 :: .loadNfa c!"a b\n-> x {} {}" :: .loadDfa c!"b a\n-> x x x" :: [])).map
      (fun x => x.2.map (·.2)) = some [.verdict none, .key none, .loaded (.ok 2), .loaded (.ok 1)] ∧
    (session page (.checkNfaEq 3 2 :: .dfaToNfa 1 :: .loadNfa c!"a b\n-> x {} {}" :: .loadDfa c!"b a\n-> x x x" :: [])).map
      (fun x => x.2.map (·.2)) = some [.verdict (some true), .key (some 3), .loaded (.ok 2), .loaded (.ok 1)] := by decide +kernel

/-- **C54** What is drawn has the meaning of the handle. -/
theorem C54_draw (env : Env) (hcl : Segmentation env.cl) (cs : List Call) (hcs : ∀ x ∈ cs, x.Valid) (s : Store)
    (h : List (Call × Result)) (k : Nat) (id : Str) (al : List Str) (L : Word → Prop) :
    (∀ d, session env (.drawDfa k id :: cs) = some (s, (.drawDfa k id, .drewDfa (some d)) :: h) → Means env.cl h .dfa k al L →
      d.WF ∧ d.alphabet = al ∧ ∀ w, d.Lang w ↔ L w) ∧
    ∀ n, session env (.drawNfa k id :: cs) = some (s, (.drawNfa k id, .drewNfa (some n)) :: h) → Means env.cl h .nfa k al L →
      n.WF ∧ n.alphabet = al ∧ ∀ w, n.Lang w ↔ L w := by
  constructor
  · intro d hs h1
    obtain ⟨s0, h0, r0, e1, e2, e3⟩ := session_cons hs
    cases e3
    have hi := session_inv hcl hcs e1
    obtain ⟨a1, f1, f2, f3⟩ := hi.means _ _ _ _ h1
    obtain ⟨d1, f4, rfl⟩ := obj_dfa_elim f1
    have e := (some_pair (x := (s0, drawDfa env s0 k id)) e2).2
    simp only [drawDfa, f4] at e
    split at e
    · cases e
      exact ⟨(hi.good _ _ _ f1).1.valid, Eq.symm f2, f3⟩
    · cases e
  · intro d hs h1
    obtain ⟨s0, h0, r0, e1, e2, e3⟩ := session_cons hs
    cases e3
    have hi := session_inv hcl hcs e1
    obtain ⟨a1, f1, f2, f3⟩ := hi.means _ _ _ _ h1
    obtain ⟨d1, f4, rfl⟩ := obj_nfa_elim f1
    have e := (some_pair (x := (s0, drawNfa env s0 k id)) e2).2
    simp only [drawNfa, f4] at e
    split at e
    · cases e
      exact ⟨(hi.good _ _ _ f1).1.valid, Eq.symm f2, f3⟩
    · cases e

/-- **C54** The table given back is a text of an automaton with the meaning of the handle (so it can be loaded again), if the elements
can be written in tables and, for DFAs, there is at least one (see C40). -/
theorem C54_table (env : Env) (hcl : Segmentation env.cl) (cs : List Call) (hcs : ∀ x ∈ cs, x.Valid) (s : Store)
    (h : List (Call × Result)) (k : Nat) (t : Str) (al : List Str) (L : Word → Prop) (hal : ∀ e ∈ al, Name e) :
    (session env (.dfaToTable k :: cs) = some (s, (.dfaToTable k, .table (some t)) :: h) → Means env.cl h .dfa k al L → al ≠ [] →
      ∃ d, IsTextOf env.cl t (.dfa d) ∧ d.alphabet = al ∧ ∀ w, d.Lang w ↔ L w) ∧
    (session env (.nfaToTable k :: cs) = some (s, (.nfaToTable k, .table (some t)) :: h) → Means env.cl h .nfa k al L →
      ∃ n, IsTextOf env.cl t (.nfa n) ∧ n.alphabet = al ∧ ∀ w, n.Lang w ↔ L w) := by
  constructor
  · intro hs h1 hne
    obtain ⟨s0, h0, r0, e1, e2, e3⟩ := session_cons hs
    cases e3
    have hi := session_inv hcl hcs e1
    obtain ⟨a1, f1, f2, f3⟩ := hi.means _ _ _ _ h1
    obtain ⟨d, f4, rfl⟩ := obj_dfa_elim f1
    have hg : DGood Name (fun _ => True) d := (hi.good _ _ _ f1).1
    have e7 : al = d.alphabet := f2
    obtain ⟨⟨t', p, g1, g2, g3⟩, _⟩ := C40_roundtrip d hg.1 (e7 ▸ hne) (e7 ▸ hal) hg.2.1
    dsimp only [call] at e2
    simp only [dfaToTable, f4, g1] at e2
    cases e2
    exact ⟨d, ((C61_load_content env.cl hcl t .dfa (.dfa d) (Cli.Automata.load_dfa_iff.2 ⟨p, d, g2, g3, rfl⟩)).2.2.1), e7.symm, f3⟩
  · intro hs h1
    obtain ⟨s0, h0, r0, e1, e2, e3⟩ := session_cons hs
    cases e3
    have hi := session_inv hcl hcs e1
    obtain ⟨a1, f1, f2, f3⟩ := hi.means _ _ _ _ h1
    obtain ⟨d, f4, rfl⟩ := obj_nfa_elim f1
    have hg : NGood Name (fun _ => True) d := (hi.good _ _ _ f1).1
    have e7 : al = d.alphabet := f2
    obtain ⟨⟨t', p, g1, g2, g3⟩, _⟩ := C41_roundtrip d hg.1 (e7 ▸ hal) hg.2.1
    dsimp only [call] at e2
    simp only [nfaToTable, f4, g1] at e2
    cases e2
    exact ⟨d, ((C61_load_content env.cl hcl t .nfa (.nfa d) (Cli.Automata.load_nfa_iff.2 ⟨p, d, g2, g3, rfl⟩)).2.2.1), e7.symm, f3⟩

/-- The table printed in `visit` is loaded again and compared with the DFA printed. -/
example : (session page (.checkDfaEq 5 3 :: .loadDfa c!"      b a \n→   1 1 3 \n  * 3 3 3 " :: visit.drop 5)).map
      (fun x => (x.2.take 3).map (·.2)) =
    some [.verdict (some true), .loaded (.ok 5), .table (some c!"      b a \n→   1 1 3 \n  * 3 3 3 ")] := by decide +kernel

/-- **C54** After `minimize_dfa` the handle stands for a minimal DFA with the same meaning: this is what is drawn next. -/
theorem C54_minimize (env : Env) (hcl : Segmentation env.cl) (cs : List Call) (hcs : ∀ x ∈ cs, x.Valid) (s : Store)
    (h : List (Call × Result)) (k : Nat) (o : Cli.MinOrd) (ho : o.Valid) (id : Str) (r : Result) (d : Dfa) (al : List Str) (L : Word → Prop)
    (hs : session env (.drawDfa k id :: .minimizeDfa k o :: cs) =
      some (s, (.drawDfa k id, .drewDfa (some d)) :: (.minimizeDfa k o, r) :: h))
    (hm : Means env.cl h .dfa k al L) : Minimal d ∧ d.alphabet = al ∧ ∀ w, d.Lang w ↔ L w := by
  have hcs' : ∀ x ∈ Call.minimizeDfa k o :: cs, x.Valid := by
    intro x hx
    rcases List.mem_cons.1 hx with rfl | hx
    · exact ho
    · exact hcs x hx
  have hm' : Means env.cl ((.minimizeDfa k o, r) :: h) .dfa k al L := .keep hm (by unfold removed; split <;> simp_all)
  refine ⟨?_, ((C54_draw env hcl _ hcs' s _ k id al L).1 d hs hm').2⟩
  obtain ⟨s1, h1, r1, e1, e2, e3⟩ := session_cons hs
  cases e3
  obtain ⟨s0, h0, r0, e4, e5, e6⟩ := session_cons e1
  cases e6
  have hi := session_inv hcl hcs e4
  obtain ⟨a1, f1, f2, f3⟩ := hi.means _ _ _ _ hm
  obtain ⟨d0, f4, rfl⟩ := obj_dfa_elim f1
  obtain ⟨m, g1, _, _, _, g5⟩ := ho.minimize (d := d0) (hi.good _ _ _ f1).1.valid
  dsimp only [call] at e5
  simp only [minimizeDfa, f4, g1] at e5
  cases e5
  have e := (some_pair (x := (_, drawDfa env _ k id)) e2).2
  simp only [drawDfa, get_put, f4] at e
  split at e
  · rename_i heq
    simp at heq
  · rename_i heq
    simp at heq
    subst heq
    split at e
    · cases e; exact g5
    · cases e

/-- The DFA made from the expression has more states before. -/
example : (session page (.drawDfa 3 c!"canvas" :: visit.drop 8)).map
      (fun x => x.2.head?.map (fun e => match e.2 with | .drewDfa (some d) => d.states.length | _ => 0)) = some (some 4) ∧
    (session page (.drawDfa 3 c!"canvas" :: visit.drop 6)).map
      (fun x => x.2.head?.map (fun e => match e.2 with | .drewDfa (some d) => d.states.length | _ => 0)) = some (some 2) := by
  decide +kernel

end Dandy
