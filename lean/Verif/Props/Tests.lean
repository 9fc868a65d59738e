import Verif.Proofs.Tests
import Verif.Props.DfaMinimize
import Verif.Props.DfaProduct
import Verif.Props.Docs
import Verif.Props.Graphemes
import Verif.Props.NfaEps
import Verif.Props.NfaProduct
import Verif.Props.NfaToDfa
import Verif.Props.RegexParser
import Verif.Props.Tables
import Verif.Props.Validate
import Verif.Props.Words
/-!
# C79: the randomized tests of dandy/src/tests.rs pass for everything their generators can produce, at any size

A randomized test tries some hundred random inputs of bounded size; here each test is proved to pass for all inputs.
-/

namespace Dandy
open Samples PropTests

/-! ## Reading back tables -/

/-- **C79** `dfa_table_reparse`: no generated DFA makes the test fail. -/
theorem C79_dfa_table_reparse (d : Dfa) (h : GenDfa d) : dfaTableReparse d = some () := by
  obtain ⟨h1, h2, h3, h4⟩ := genDfa_facts h
  obtain ⟨⟨t, p, e1, e2, e3⟩, _⟩ := C40_roundtrip d h1 h2 h3 h4
  unfold dfaTableReparse
  simp [e1, e2, e3, unwrapOk, check]

/-- **C79** `nfa_table_reparse`. -/
theorem C79_nfa_table_reparse (n : Nfa) (h : GenNfa n) : nfaTableReparse n = some () := by
  obtain ⟨h1, h3, h4⟩ := genNfa_facts h
  obtain ⟨⟨t, p, e1, e2, e3⟩, _⟩ := C41_roundtrip n h1 h3 h4
  unfold nfaTableReparse
  simp [e1, e2, e3, unwrapOk, check]

theorem nameSet_of (names : List Str) (h1 : names.Nodup)
    (h2 : ∀ t ∈ names, t ≠ [] ∧ (∀ c ∈ t, Fa.endsName c = false) ∧ Fa.reserved.contains t = false) : NameSet names.length names :=
  ⟨rfl, h1, fun t ht => name_iff.2 (h2 t ht)⟩

/-- A DFA as the generator makes it: three states with odd names, the second one initial, alphabet of two odd names. -/
def drawn : Dfa :=
  dfaOf [c!"ε*", c!"q", c!"-"] [c!"|", c!"λx"] 1 [true, false, true] [[0, 2], [1, 1], [2, 0]]

theorem drawn_gen : GenDfa drawn :=
  ⟨2, [c!"|", c!"λx"], by decide, nameSet_of _ (by decide) (by decide), .mk 3 _ 1 _ _ (nameSet_of _ (by decide) (by decide)) (by decide) rfl rfl (by decide)⟩

example : GenDfa drawn ∧ drawn.toTable = some c!"       |  λx \n  * ε* ε* - \n→   q  q  q \n  * -  -  ε* " := ⟨drawn_gen, by decide +kernel⟩

/-- An NFA as the generator makes it, with shuffled rows and epsilon moves. -/
def drawnN : Nfa :=
  nfaOf [c!"x", c!"→→"] [c!"a", c!"bc"] 0 [false, true] [[[1, 0], []], [[0], [0, 1]]] [[1], [1, 0]]

theorem drawnN_gen : GenNfa drawnN := by
  have t0 : Targets 2 [] := ⟨[false, false], rfl, .refl _⟩
  have t1 : Targets 2 [0] := ⟨[true, false], rfl, .refl _⟩
  have t2 : Targets 2 [1] := ⟨[false, true], rfl, .refl _⟩
  have t3 : Targets 2 [0, 1] := ⟨[true, true], rfl, .refl _⟩
  have t4 : Targets 2 [1, 0] := ⟨[true, true], rfl, .swap 0 1 []⟩
  refine ⟨2, [c!"a", c!"bc"], by decide, nameSet_of _ (by decide) (by decide),
    .mk 2 _ 0 _ _ _ (nameSet_of _ (by decide) (by decide)) (by decide) rfl rfl rfl ?_ ?_⟩
  · intro row hrow
    simp only [List.mem_cons, List.not_mem_nil, or_false] at hrow
    rcases hrow with rfl | rfl
    · refine ⟨rfl, fun ts hts => ?_⟩
      simp only [List.mem_cons, List.not_mem_nil, or_false] at hts
      rcases hts with rfl | rfl <;> assumption
    · refine ⟨rfl, fun ts hts => ?_⟩
      simp only [List.mem_cons, List.not_mem_nil, or_false] at hts
      rcases hts with rfl | rfl <;> assumption
  · intro ts hts
    simp only [List.mem_cons, List.not_mem_nil, or_false] at hts
    rcases hts with rfl | rfl <;> assumption

example : GenNfa drawnN ∧ nfaTableReparse drawnN = some () := ⟨drawnN_gen, by decide +kernel⟩

/-! ## Conversions, minimization, removal of states -/

/-- **C79** `dfa_minimize_eq`, whatever the iteration orders of the hash sets. -/
theorem C79_dfa_minimize_eq (o : Orders) (ho : o.Ok) (d : Dfa) (h : GenDfa d) : dfaMinimizeEq o d = some () := by
  obtain ⟨hd, _⟩ := genDfa_facts h
  obtain ⟨m, e1, e2, e3, e4, _⟩ := C16_minimize (o.idx 0) (o.idx 1) (o.idx 2) (ho.idx 0) (ho.idx 1) (ho.idx 2) d hd
  have h1 := (C11_dfa_equivalent_to m d e2 hd).2.2 ⟨by rw [e3]; exact fun _ => Iff.rfl, e4⟩
  have h2 := (C11_dfa_equivalent_to d m hd e2).2.2 ⟨by rw [e3]; exact fun _ => Iff.rfl, fun w => (e4 w).symm⟩
  unfold dfaMinimizeEq
  simp [e1, h1, h2, check]

/-- **C79** `dfa_to_nfa_to_dfa`. -/
theorem C79_dfa_to_nfa_to_dfa (d : Dfa) (h : GenDfa d) : dfaToNfaToDfa d = some () := by
  obtain ⟨hd, _⟩ := genDfa_facts h
  have hn := (C18_to_nfa_lang d hd []).1
  obtain ⟨c, e1, e2, e3, e4, _⟩ := C19_to_dfa d.toNfa hn
  have ha : c.alphabet = d.alphabet := e3
  have hl : ∀ w, c.Lang w ↔ d.Lang w := fun w => (e4 w).trans (C18_to_nfa_lang d hd w).2.1
  have h1 := (C11_dfa_equivalent_to c d e2 hd).2.2 ⟨by rw [ha]; exact fun _ => Iff.rfl, hl⟩
  have h2 := (C11_dfa_equivalent_to d c hd e2).2.2 ⟨by rw [ha]; exact fun _ => Iff.rfl, fun w => (hl w).symm⟩
  unfold dfaToNfaToDfa
  simp [e1, h1, h2, check]

theorem nfa_equivalent {n o : Nfa} (hn : n.WF) (ho : o.WF) (ha : n.alphabet = o.alphabet) (hl : ∀ w, n.Lang w ↔ o.Lang w) :
    n.equivalentTo o = some true := by
  obtain ⟨b, h1, h2⟩ := C20_nfa_equivalent_to n o hn ho
  rw [h1, h2.2 ⟨by rw [ha]; exact fun _ => Iff.rfl, hl⟩]

/-- **C79** `nfa_to_dfa_to_nfa`. -/
theorem C79_nfa_to_dfa_to_nfa (n : Nfa) (h : GenNfa n) : nfaToDfaToNfa n = some () := by
  obtain ⟨hn, _⟩ := genNfa_facts h
  obtain ⟨c, e1, e2, e3, e4, _⟩ := C19_to_dfa n hn
  have hc := (C18_to_nfa_lang c e2 []).1
  have ha : c.toNfa.alphabet = n.alphabet := e3
  have hl : ∀ w, c.toNfa.Lang w ↔ n.Lang w := fun w => (C18_to_nfa_lang c e2 w).2.1.trans (e4 w)
  unfold nfaToDfaToNfa
  simp [e1, nfa_equivalent hn hc ha.symm (fun w => (hl w).symm), nfa_equivalent hc hn ha hl, check]

/-- **C79** `nfa_remove_epsilon_transitions`. -/
theorem C79_nfa_remove_epsilon_transitions (o : Orders) (ho : o.Ok) (n : Nfa) (h : GenNfa n) :
    nfaRemoveEpsilonTransitions o n = some () := by
  obtain ⟨hn, _⟩ := genNfa_facts h
  obtain ⟨m, e1, e2, e3, e4, e5, e6, _⟩ := C25_remove_epsilon_moves (o.row 0) (ho.row 0) (o.idx 0) (ho.idx 0) n hn
  unfold nfaRemoveEpsilonTransitions
  simp only [e1, nfa_equivalent hn e2 e3.symm (fun w => (e6 w).symm), check, e5, Option.bind_eq_bind, Option.bind_some,
    List.all_eq_true, List.isEmpty_iff]
  rw [if_pos e4]
  rfl

/-- **C79** `nfa_remove_unreachable_states`. -/
theorem C79_nfa_remove_unreachable_states (o : Orders) (ho : o.Ok) (n : Nfa) (h : GenNfa n) :
    nfaRemoveUnreachableStates o n = some () := by
  obtain ⟨hn, _⟩ := genNfa_facts h
  obtain ⟨m, e1, e2, e3, e4, _⟩ := C27_nfa_remove_unreachable (o.idx 0) (ho.idx 0) n hn
  unfold nfaRemoveUnreachableStates
  simp [e1, nfa_equivalent hn e2 e3.symm (fun w => (e4 w).symm), check]

/-- Orders for the examples. -/
def someOrders : Orders := ⟨fun _ => List.reverse, fun _ => List.reverse, fun k l => if k % 2 = 0 then l.reverse else l, fun _ _ _ => List.reverse⟩

theorem someOrders_ok : someOrders.Ok :=
  ⟨fun _ l => l.reverse_perm, fun _ l => l.reverse_perm, fun k l => by
    unfold someOrders; dsimp only; split
    · exact l.reverse_perm
    · exact .refl _, fun _ _ _ l => l.reverse_perm⟩

example : someOrders.Ok ∧ GenDfa drawn ∧ GenNfa drawnN ∧ dfaMinimizeEq someOrders drawn = some () ∧ dfaToNfaToDfa drawn = some () ∧
    nfaToDfaToNfa drawnN = some () ∧ nfaRemoveEpsilonTransitions someOrders drawnN = some () ∧
    nfaRemoveUnreachableStates someOrders drawnN = some () :=
  ⟨someOrders_ok, drawn_gen, drawnN_gen, by decide +kernel, by decide +kernel, by decide +kernel, by decide +kernel, by decide +kernel⟩

/-! ## Binary operations -/

/-- **C79** `dfa_binary_ops`, for every list of strings, not only strings of letters, and every segmentation into clusters. -/
theorem C79_dfa_binary_ops (seg : Str → List Str) (o : Orders) (ho : o.Ok) (d1 d2 : Dfa) (h1 : FixedDfa 'a' 'f' d1)
    (h2 : FixedDfa 'a' 'f' d2) (tests : List Str) : dfaBinaryOps seg o d1 d2 tests = some () := by
  obtain ⟨w1, a1⟩ := fixedDfa_facts (by decide) h1
  obtain ⟨w2, a2⟩ := fixedDfa_facts (by decide) h2
  have hs : SameElems d1.alphabet d2.alphabet := fun e => (a1 e).trans (a2 e).symm
  obtain ⟨u, u1, u2, _, u3⟩ := ((C09_dfa_set_operations (o.pairs 1) (ho.pairs 1) d1 d2 w1 w2).2 hs).1
  obtain ⟨i, i1, i2, _, i3⟩ := ((C09_dfa_set_operations (o.pairs 0) (ho.pairs 0) d1 d2 w1 w2).2 hs).2.1
  obtain ⟨d, d1', d2', _, d3⟩ := ((C09_dfa_set_operations (o.pairs 2) (ho.pairs 2) d1 d2 w1 w2).2 hs).2.2.1
  obtain ⟨x, x1, x2, _, x3⟩ := ((C09_dfa_set_operations (o.pairs 3) (ho.pairs 3) d1 d2 w1 w2).2 hs).2.2.2
  unfold dfaBinaryOps
  simp only [u1, i1, d1', x1, Option.bind_eq_bind, Option.bind_some]
  refine forEach_some (fun test _ => ?_)
  have k1 := C60_dfa_accepts_graphemes seg d1 w1 test
  have k2 := C60_dfa_accepts_graphemes seg d2 w2 test
  have ku := (C60_dfa_accepts_graphemes seg u u2 test).trans (u3 _)
  have ki := (C60_dfa_accepts_graphemes seg i i2 test).trans (i3 _)
  have kd := (C60_dfa_accepts_graphemes seg d d2' test).trans (d3 _)
  have kx := (C60_dfa_accepts_graphemes seg x x2 test).trans (x3 _)
  rw [← k1, ← k2] at ku ki kd kx
  revert ku ki kd kx
  generalize d1.acceptsGraphemes seg test = r1
  generalize d2.acceptsGraphemes seg test = r2
  generalize u.acceptsGraphemes seg test = ru
  generalize i.acceptsGraphemes seg test = ri
  generalize d.acceptsGraphemes seg test = rd
  generalize x.acceptsGraphemes seg test = rx
  cases r1 <;> cases r2 <;> cases ru <;> cases ri <;> cases rd <;> cases rx <;> simp [check]

/-- **C79** `nfa_binary_ops`. -/
theorem C79_nfa_binary_ops (seg : Str → List Str) (o : Orders) (ho : o.Ok) (n1 n2 : Nfa) (h1 : FixedNfa 'a' 'f' n1)
    (h2 : FixedNfa 'a' 'f' n2) (tests : List Str) : nfaBinaryOps seg o n1 n2 tests = some () := by
  obtain ⟨w1, a1⟩ := fixedNfa_facts (by decide) h1
  obtain ⟨w2, a2⟩ := fixedNfa_facts (by decide) h2
  have hs : SameElems n1.alphabet n2.alphabet := fun e => (a1 e).trans (a2 e).symm
  obtain ⟨u, u1⟩ := (C21_union_err n1 n2 w1 w2).2 hs
  obtain ⟨_, _, _, u2⟩ := C21_union_lang n1 n2 u w1 w2 u1
  obtain ⟨⟨r, i1⟩, i2⟩ := C22_intersection_none_iff (o.opairs 0) (ho.opairs 0) n1 n2 w1 w2
  cases r with
  | none => exact absurd hs (i2.1 i1)
  | some i =>
    obtain ⟨_, _, _, i3⟩ := C22_intersection_lang (o.opairs 0) (ho.opairs 0) n1 n2 i w1 w2 i1
    unfold nfaBinaryOps
    simp only [u1, i1, unwrapOk, Option.bind_eq_bind, Option.bind_some]
    refine forEach_some (fun test _ => ?_)
    have e1 : u.acceptsGraphemes seg test = _ := u2 (seg test)
    have e2 : i.acceptsGraphemes seg test = _ := i3 (seg test)
    rw [e1, e2]
    change (check ((n1.accepts (seg test) && n2.accepts (seg test)) == (n1.accepts (seg test) && n2.accepts (seg test)))).bind
      (fun _ => check ((n1.accepts (seg test) || n2.accepts (seg test)) == (n1.accepts (seg test) || n2.accepts (seg test)))) = some ()
    generalize n1.accepts (seg test) = b1
    generalize n2.accepts (seg test) = b2
    revert b1 b2
    decide

/-- **C79** `dfa_self_union` and `dfa_self_intersection`. -/
theorem C79_dfa_self (o : Orders) (ho : o.Ok) (d : Dfa) (h : FixedDfa 'a' 'z' d) :
    dfaSelfUnion o d = some () ∧ dfaSelfIntersection o d = some () := by
  obtain ⟨hd, _⟩ := fixedDfa_facts (by decide) h
  have ops := (C09_dfa_set_operations (o.pairs 0) (ho.pairs 0) d d hd hd).2 (fun _ => Iff.rfl)
  obtain ⟨u, u1, u2, u3, u4⟩ := ops.1
  obtain ⟨i, i1, i2, i3, i4⟩ := ops.2.1
  have e1 := (C11_dfa_equivalent_to u d u2 hd).2.2 ⟨by rw [u3]; exact fun _ => Iff.rfl, fun w => (u4 w).trans (or_self_iff)⟩
  have e2 := (C11_dfa_equivalent_to i d i2 hd).2.2 ⟨by rw [i3]; exact fun _ => Iff.rfl, fun w => (i4 w).trans (and_self_iff)⟩
  constructor
  · unfold dfaSelfUnion; simp [u1, e1, check]
  · unfold dfaSelfIntersection; simp [i1, e2, check]

theorem check_some {b : Bool} : check b = some () ↔ b = true := by cases b <;> simp [check]

theorem bind_unit {x y : Option Unit} : (x.bind fun _ => y) = some () ↔ x = some () ∧ y = some () := by
  cases x <;> simp

theorem forEach_iff {α : Type} {f : α → Option Unit} : ∀ {l : List α}, forEach f l = some () ↔ ∀ a ∈ l, f a = some ()
  | [] => by simp [forEach]
  | a :: l => by
    rw [forEach, Option.bind_eq_bind, bind_unit, forEach_iff]
    simp

theorem inversion_iff (seg : Str → List Str) (o : Orders) (ho : o.Ok) (d : Dfa) (hd : d.WF) (tests : List Str) :
    dfaInversionTautologies seg o d tests = some () ↔ ∀ t ∈ tests, Over d.alphabet (seg t) := by
  have hi := (C07_invert_complement d hd []).1
  have hs : SameElems d.alphabet d.invert.alphabet := fun _ => Iff.rfl
  obtain ⟨u, u1, u2, u3, u4⟩ := ((C09_dfa_set_operations (o.pairs 0) (ho.pairs 0) d d.invert hd hi).2 hs).1
  obtain ⟨i, i1, i2, i3, i4⟩ := ((C09_dfa_set_operations (o.pairs 1) (ho.pairs 1) d d.invert hd hi).2 hs).2.1
  have hu : ∀ w, u.Lang w ↔ Over d.alphabet w := by
    intro w
    rw [u4, (C07_invert_complement d hd w).2.1]
    constructor
    · rintro (h | h)
      · exact Dfa.over_of_lang hd h
      · exact h.1
    · intro hw
      by_cases hc : d.Lang w
      · exact Or.inl hc
      · exact Or.inr ⟨hw, hc⟩
  have hin : ∀ w, ¬ i.Lang w := by
    intro w
    rw [i4, (C07_invert_complement d hd w).2.1]
    rintro ⟨h1, _, h2⟩
    exact h2 h1
  obtain ⟨b, b1, b2⟩ := (C12_dfa_reachability u u2).2.2
  obtain ⟨c, c1, c2⟩ := (C12_dfa_reachability i i2).2.2
  have hb : b = true := b2.2 ⟨[], (hu []).2 (by intro e he; cases he)⟩
  have hc : c = false := by
    rw [← Bool.not_eq_true, c2]
    rintro ⟨w, hw⟩
    exact hin w hw
  have hno : ∀ test, i.acceptsGraphemes seg test = false := by
    intro test
    rw [← Bool.not_eq_true, C60_dfa_accepts_graphemes seg i i2 test]
    exact hin _
  unfold dfaInversionTautologies
  simp only [u1, i1, b1, c1, hb, hc, hno, Option.bind_eq_bind, Option.bind_some, bind_unit, forEach_iff, check_some,
    C60_dfa_accepts_graphemes seg u u2, hu, Bool.not_false, true_and, and_true]

/-- **C79** `dfa_inversion_tautologies`. -/
theorem C79_dfa_inversion_tautologies (seg : Str → List Str) (hseg : BreaksLetters seg) (o : Orders) (ho : o.Ok) (d : Dfa)
    (h : FixedDfa 'a' 'f' d) (tests : List Str) (ht : ∀ t ∈ tests, LetterString 'a' 'f' t) :
    dfaInversionTautologies seg o d tests = some () := by
  obtain ⟨hd, ha⟩ := fixedDfa_facts (by decide) h
  rw [inversion_iff seg o ho d hd]
  intro test htest e he
  obtain ⟨_, hl⟩ := ht test htest
  have hlet : ∀ c ∈ test, Letter c := fun c hc => ⟨(hl c hc).1, Char.le_trans (hl c hc).2 (show 'f' ≤ 'z' by decide)⟩
  rw [hseg test hlet] at he
  obtain ⟨c, hc, rfl⟩ := List.mem_map.1 he
  exact (ha _).2 ⟨c, rfl, hl c hc⟩

/-- **C79** What `dfa_inversion_tautologies` checks: for arbitrary strings it passes iff they are made of elements of the alphabet. -/
theorem C79_dfa_inversion_iff (seg : Str → List Str) (o : Orders) (ho : o.Ok) (d : Dfa) (h : FixedDfa 'a' 'f' d) (tests : List Str) :
    dfaInversionTautologies seg o d tests = some () ↔ ∀ t ∈ tests, ∀ e ∈ seg t, ∃ c : Char, e = [c] ∧ 'a' ≤ c ∧ c ≤ 'f' := by
  obtain ⟨hd, ha⟩ := fixedDfa_facts (by decide) h
  rw [inversion_iff seg o ho d hd]
  unfold Over
  simp only [ha]

/-- A generated DFA over the letters from `a` to `f` in shuffled order: it counts the `a`s modulo two. -/
def drawnF : Dfa :=
  dfaOf [c!"x", c!"y"] [s 'c', s 'a', s 'f', s 'b', s 'e', s 'd'] 1 [true, false] [[0, 1, 0, 0, 0, 0], [1, 0, 1, 1, 1, 1]]

theorem drawnF_gen : FixedDfa 'a' 'f' drawnF :=
  ⟨_, by decide, .mk 2 _ 1 _ _ (nameSet_of _ (by decide) (by decide)) (by decide) rfl rfl (by decide)⟩

/-- A segmentation with one character per cluster. -/
def seg1 (t : Str) : List Str := t.map (fun c => [c])

theorem seg1_breaks : BreaksLetters seg1 := fun _ _ => rfl

example : FixedDfa 'a' 'f' drawnF ∧ FixedDfa 'a' 'f' drawnF ∧ LetterString 'a' 'f' c!"face" ∧ BreaksLetters seg1 ∧
    dfaBinaryOps seg1 someOrders drawnF drawnF.invert [c!"face", c!"badge", []] = some () ∧
    dfaInversionTautologies seg1 someOrders drawnF [c!"face", c!"b"] = some () ∧
    dfaInversionTautologies seg1 someOrders drawnF [c!"xyz"] = none :=
  ⟨drawnF_gen, drawnF_gen, ⟨by decide, by decide⟩, seg1_breaks, by decide +kernel, by decide +kernel, by decide +kernel⟩

/-- A generated DFA over all letters. -/
def drawnZ : Dfa := dfaOf [c!"x", c!"y"] (charRange 'a' 'z').reverse 0 [false, true] [List.replicate 26 1, List.replicate 26 0]

theorem drawnZ_gen : FixedDfa 'a' 'z' drawnZ :=
  ⟨_, List.reverse_perm _, .mk 2 _ 0 _ _ (nameSet_of _ (by decide) (by decide)) (by decide) rfl rfl (by decide)⟩

example : FixedDfa 'a' 'z' drawnZ ∧ dfaSelfUnion someOrders drawnZ = some () := ⟨drawnZ_gen, by decide +kernel⟩

/-- A generated NFA over the letters from `a` to `f`: words that contain an `a` which is not the first letter. -/
def drawnFN : Nfa :=
  nfaOf [c!"x", c!"y"] [s 'b', s 'a', s 'f', s 'c', s 'e', s 'd'] 0 [false, true]
    [[[0], [1, 0], [0], [0], [0], [0]], [[1], [1], [1], [1], [1], [1]]] [[], []]

theorem drawnFN_gen : FixedNfa 'a' 'f' drawnFN := by
  have t0 : Targets 2 [] := ⟨[false, false], rfl, .refl _⟩
  have t1 : Targets 2 [0] := ⟨[true, false], rfl, .refl _⟩
  have t2 : Targets 2 [1] := ⟨[false, true], rfl, .refl _⟩
  have t4 : Targets 2 [1, 0] := ⟨[true, true], rfl, .swap 0 1 []⟩
  refine ⟨[s 'b', s 'a', s 'f', s 'c', s 'e', s 'd'], by decide,
    .mk 2 _ 0 _ _ _ (nameSet_of _ (by decide) (by decide)) (by decide) rfl rfl rfl ?_ ?_⟩
  · intro row hrow
    simp only [List.mem_cons, List.not_mem_nil, or_false] at hrow
    rcases hrow with rfl | rfl
    · refine ⟨rfl, fun ts hts => ?_⟩
      simp only [List.mem_cons, List.not_mem_nil, or_false] at hts
      rcases hts with rfl | rfl | rfl | rfl | rfl | rfl <;> assumption
    · refine ⟨rfl, fun ts hts => ?_⟩
      simp only [List.mem_cons, List.not_mem_nil, or_false] at hts
      rcases hts with rfl | rfl | rfl | rfl | rfl | rfl <;> assumption
  · intro ts hts
    simp only [List.mem_cons, List.not_mem_nil, or_false] at hts
    rcases hts with rfl | rfl <;> assumption

example : FixedNfa 'a' 'f' drawnFN ∧ nfaBinaryOps seg1 someOrders drawnFN drawnF.toNfa [c!"face", c!"badge", []] = some () ∧
    drawnFN.acceptsGraphemes seg1 c!"face" = true ∧ drawnF.toNfa.acceptsGraphemes seg1 c!"face" = true ∧
    drawnFN.acceptsGraphemes seg1 c!"bed" = false := ⟨drawnFN_gen, by decide +kernel, by decide +kernel, by decide +kernel, by decide +kernel⟩

/-! ## Enumeration of words -/

theorem seg_word {seg : Str → List Str} (hseg : BreaksLetters seg) {al : List Str}
    (hal : ∀ e ∈ al, ∃ c : Char, e = [c] ∧ Letter c) {w : Word} (hw : Over al w) : seg w.flatten = w := by
  have key : ∀ {w : Word}, Over al w → (∀ c ∈ w.flatten, Letter c) ∧ w.flatten.map (fun c => [c]) = w := by
    intro w
    induction w with
    | nil => intro _; simp
    | cons e w ih =>
      intro hw
      obtain ⟨c, rfl, hc⟩ := hal e (hw e List.mem_cons_self)
      obtain ⟨h1, h2⟩ := ih (fun x hx => hw x (List.mem_cons_of_mem _ hx))
      constructor
      · intro d hd
        simp only [List.flatten_cons, List.cons_append, List.nil_append, List.mem_cons] at hd
        rcases hd with rfl | hd
        · exact hc
        · exact h1 d hd
      · simp only [List.flatten_cons, List.cons_append, List.nil_append, List.map_cons, h2]
  rw [hseg _ (key hw).1, (key hw).2]

/-- The texts produced by `words()` are words of the language. -/
theorem words_text {seg : Str → List Str} (hseg : BreaksLetters seg) {n : Nfa} (hn : n.WF)
    (hal : ∀ e ∈ n.alphabet, ∃ c : Char, e = [c] ∧ Letter c) (he : n.hasEpsilonMoves = false) (k : Nat) :
    ∃ rs, n.words k = some rs ∧ ∀ t ∈ rs.filterMap id, n.Lang (seg t) := by
  obtain ⟨it, hit, h⟩ := iterators_eq hn he
  refine ⟨_, (h k).2.2, fun t ht => ?_⟩
  simp only [List.mem_filterMap, List.mem_map, id, exists_eq_right] at ht
  obtain ⟨j, _, hj⟩ := ht
  obtain ⟨w, hw, rfl⟩ := Option.map_eq_some_iff.1 hj
  have hil := ((WordIter.out_spec hn hit j).1 w hw).1
  have hl : n.Lang (n.comp w) := ((Nfa.ilang_iff hn he w).1 hil).2
  rw [seg_word hseg hal (Nfa.over_of_lang hl)]
  exact hl

/-- **C79** The counter of `nfa_words`: it never panics; its items are exactly the sequences of at most `N` numbers from 0 to `max`, in the order
of their length and then of the numbers; and after the end it stays at the end. -/
theorem C79_counter (N max : Nat) : ∃ (its : Nat → CounterIter) (items : Nat → Option (List Nat)),
    its 0 = CounterIter.new N max ∧ (∀ k, (its k).next = some (its (k + 1), items k)) ∧
    (∀ w, (∃ k, items k = some w) ↔ w.length ≤ N ∧ ∀ a ∈ w, a ≤ max) ∧
    (∀ j k u v, items j = some u → items k = some v → (j < k ↔ u.length < v.length ∨ (u.length = v.length ∧ u < v))) ∧
    ∀ j k, j ≤ k → items j = none → items k = none := by
  let step : CounterIter → CounterIter × Option (List Nat) := fun it => it.next.getD (it, none)
  let its : Nat → CounterIter := fun k => Nat.rec (CounterIter.new N max) (fun _ it => (step it).1) k
  have key : ∀ k, ((∃ w, (its k).next = some (its (k + 1), some w) ∧ w.length ≤ N ∧ (∀ a ∈ w, a ≤ max) ∧ rank (max + 1) w = k) ∧
        AtWord N (max + 1) k (its (k + 1))) ∨
      ((its k).next = some (its (k + 1), none) ∧ (its (k + 1)).isFinished = true ∧ rank (max + 1) (List.replicate (N + 1) 0) ≤ k) := by
    intro k
    induction k with
    | zero =>
      obtain ⟨it', h1, h2⟩ := next_new N (m := max + 1) (by omega)
      have e : its (0 + 1) = it' := by
        show ((its 0).next.getD _).1 = it'
        rw [show its 0 = CounterIter.new N (max + 1 - 1) from rfl, h1]; rfl
      left
      rw [e]
      exact ⟨⟨[], h1, by simp, by simp, rfl⟩, h2⟩
    | succ k ih =>
      rcases ih with ⟨_, h⟩ | ⟨_, h2, h3⟩
      · rcases next_spec h with ⟨it', w, h1, h2, rfl⟩ | ⟨it', h1, h2, h3⟩
        · have e : its (k + 1 + 1) = it' := by
            show ((its (k + 1)).next.getD _).1 = it'
            rw [h1]; rfl
          left
          rw [e]
          refine ⟨⟨_, h1, ?_, ?_, h2.rank⟩, h2⟩
          · rw [List.length_take, h2.length]; omega
          · intro a ha
            have := h2.small a (List.mem_of_mem_take ha)
            omega
        · have e : its (k + 1 + 1) = it' := by
            show ((its (k + 1)).next.getD _).1 = it'
            rw [h1]; rfl
          right
          rw [e]
          exact ⟨h1, h2, by omega⟩
      · right
        have h1 : (its (k + 1)).next = some (its (k + 1), none) := by unfold CounterIter.next; rw [if_pos h2]
        have e : its (k + 1 + 1) = its (k + 1) := by
          show ((its (k + 1)).next.getD _).1 = _
          rw [h1]; rfl
        rw [e]
        exact ⟨h1, h2, by omega⟩
  have hnext : ∀ k, (its k).next = some (its (k + 1), (step (its k)).2) := by
    intro k
    have e : ∀ x, (its k).next = some (its (k + 1), x) → (step (its k)).2 = x := by
      intro x hx
      show ((its k).next.getD _).2 = x
      rw [hx]; rfl
    rcases key k with ⟨⟨w, h1, _⟩, _⟩ | ⟨h1, _⟩ <;> rw [e _ h1] <;> exact h1
  have hitem : ∀ k w, (step (its k)).2 = some w → w.length ≤ N ∧ (∀ a ∈ w, a ≤ max) ∧ rank (max + 1) w = k := by
    intro k w hw
    have := hnext k
    rw [hw] at this
    rcases key k with ⟨⟨w', h1, h2⟩, _⟩ | ⟨h1, _⟩
    · rw [this] at h1; cases h1; exact h2
    · rw [this] at h1; cases h1
  have hend : ∀ k, (step (its k)).2 = none → rank (max + 1) (List.replicate (N + 1) 0) ≤ k := by
    intro k hk
    have := hnext k
    rw [hk] at this
    rcases key k with ⟨⟨w', h1, h2⟩, _⟩ | ⟨_, _, h1⟩
    · rw [this] at h1; cases h1
    · exact h1
  have hrank : ∀ w : List Nat, w.length ≤ N → (∀ a ∈ w, a ≤ max) → rank (max + 1) w < rank (max + 1) (List.replicate (N + 1) 0) := by
    intro w h1 h2
    rw [rank_lt_iff (fun a ha => Nat.lt_succ_of_le (h2 a ha)) (fun a ha => by rw [List.eq_of_mem_replicate ha]; omega)]
    left
    rw [List.length_replicate]; omega
  refine ⟨its, fun k => (step (its k)).2, rfl, hnext, ?_, ?_, ?_⟩
  · intro w
    constructor
    · rintro ⟨k, hk⟩
      exact ⟨(hitem k w hk).1, (hitem k w hk).2.1⟩
    · rintro ⟨h1, h2⟩
      refine ⟨rank (max + 1) w, ?_⟩
      cases h : (step (its (rank (max + 1) w))).2 with
      | none =>
        have := hend _ h
        have := hrank w h1 h2
        omega
      | some w' =>
        obtain ⟨_, h3, h4⟩ := hitem _ w' h
        refine h.trans (congrArg some (rank_inj (fun a ha => Nat.lt_succ_of_le (h3 a ha)) (fun a ha => Nat.lt_succ_of_le (h2 a ha)) h4))
  · intro j k u v hj hk
    obtain ⟨_, h1, h2⟩ := hitem j u hj
    obtain ⟨_, h3, h4⟩ := hitem k v hk
    have := rank_lt_iff (fun a ha => Nat.lt_succ_of_le (h1 a ha)) (fun a ha => Nat.lt_succ_of_le (h3 a ha))
    rw [h2, h4] at this
    exact this
  · intro j k hjk hj
    have h1 := hend j hj
    show (step (its k)).2 = none
    cases h : (step (its k)).2 with
    | none => rfl
    | some w =>
      obtain ⟨h2, h3, h4⟩ := hitem k w h
      have := hrank w h2 h3
      omega

/-- All sequences of at most two numbers 0 or 1, then the end. -/
example : (let it := CounterIter.new 2 1; do
    let (it, a) ← it.next; let (it, b) ← it.next; let (it, c) ← it.next; let (it, d) ← it.next; let (it, e) ← it.next
    let (it, f) ← it.next; let (it, g) ← it.next; let (it, h) ← it.next; let (_, i) ← it.next
    pure [a, b, c, d, e, f, g, h, i]) =
    some [some [], some [0], some [1], some [0, 0], some [0, 1], some [1, 0], some [1, 1], none, none] := by decide +kernel

/-- **C79** `nfa_words`, with any number of words instead of 100 and any length instead of 3: the last loop ends, and every word
up to that length is found in exactly the enumeration it belongs to. -/
theorem C79_nfa_words (seg : Str → List Str) (hseg : BreaksLetters seg) (o : Orders) (ho : o.Ok) (take length : Nat) (d : Dfa)
    (h : FixedDfa 'a' 'f' d) : ∃ k, ∀ rounds, k ≤ rounds → nfaWords seg o take length rounds d = some () := by
  obtain ⟨hd, ha⟩ := fixedDfa_facts (by decide) h
  have hal : ∀ e ∈ d.alphabet, ∃ c : Char, e = [c] ∧ Letter c := by
    intro e he
    obtain ⟨c, rfl, h1, h2⟩ := (ha e).1 he
    exact ⟨c, rfl, h1, Char.le_trans h2 (show 'f' ≤ 'z' by decide)⟩
  have hpos : 1 ≤ d.alphabet.length := List.length_pos_of_mem ((ha ['a']).2 ⟨'a', rfl, by decide, by decide⟩)
  obtain ⟨hn, _⟩ := C18_to_nfa_lang d hd []
  have hne := (C18_to_nfa_structure d).1
  have noeps : d.toNfa.removeEpsilonMoves (o.row 0) (o.idx 0) = some d.toNfa := by simp [Nfa.removeEpsilonMoves, hne]
  obtain ⟨c, c1, c2, c3, c4, _⟩ := C19_to_dfa d.toNfa hn
  obtain ⟨m, m1, m2, m3, m4, _⟩ := C16_minimize (o.idx 1) (o.idx 2) (o.idx 3) (ho.idx 1) (ho.idx 2) (ho.idx 3) c c2
  have hmi := (C07_invert_complement m m2 []).1
  obtain ⟨hin, _⟩ := C18_to_nfa_lang m.invert hmi []
  have hie := (C18_to_nfa_structure m.invert).1
  have noeps' : m.invert.toNfa.removeEpsilonMoves (o.row 1) (o.idx 4) = some m.invert.toNfa := by simp [Nfa.removeEpsilonMoves, hie]
  have hia : m.invert.toNfa.alphabet = d.alphabet := m3.trans c3
  have hna : d.toNfa.alphabet = d.alphabet := rfl
  have hmd : m.alphabet = d.alphabet := m3.trans c3
  -- the two languages are complementary
  have hcompl : ∀ w, Over d.alphabet w → (d.toNfa.Lang w ↔ ¬ m.invert.toNfa.Lang w) := by
    intro w hw
    rw [(C18_to_nfa_lang m.invert hmi w).2.1, (C07_invert_complement m m2 w).2.1, hmd, m4, c4]
    constructor
    · rintro h1 ⟨_, h2⟩; exact h2 h1
    · intro h1
      by_contra h2
      exact h1 ⟨hw, h2⟩
  obtain ⟨rs, r1, r2⟩ := words_text hseg hn hal hne take
  obtain ⟨rs', r1', r2'⟩ := words_text hseg hin (by rw [hia]; exact hal) hie take
  obtain ⟨it, hit⟩ := new_isSome hne
  obtain ⟨it', hit'⟩ := new_isSome hie
  obtain ⟨p, p1, p2⟩ := waiting_start hn hit
  obtain ⟨q, q1, q2⟩ := waiting_start hin hit'
  have hidx : ∀ w : List Nat, (∀ a ∈ w, a < d.alphabet.length) → (d.toNfa.ILang w ↔ ¬ m.invert.toNfa.ILang w) := by
    intro w hw
    have hov : Over d.alphabet (w.map (fun a => d.alphabet.getD a [])) := by
      intro e he
      obtain ⟨a, ha', rfl⟩ := List.mem_map.1 he
      exact List.mem_of_getElem? (getElem?_of_lt [] (hw a ha'))
    rw [Nfa.ilang_iff hn hne, Nfa.ilang_iff hin hie, hia, hna, hcompl _ hov]
    constructor
    · rintro ⟨_, h1⟩ ⟨_, h2⟩; exact h1 h2
    · intro h1; exact ⟨hw, fun h2 => h1 ⟨hw, h2⟩⟩
  refine ⟨(d.alphabet.length + 1) ^ length + 1, fun rounds hr => ?_⟩
  have hmerge := merge_total hn hin hpos rfl (by rw [hia]) hidx length rounds hr p2 q2
  have f1 : forEach (fun word => do
      check (d.toNfa.acceptsGraphemes seg word)
      check (!m.invert.toNfa.acceptsGraphemes seg word)) (rs.filterMap id) = some () := by
    refine forEach_some (fun t ht => ?_)
    have hl := r2 t ht
    have k1 := (C60_nfa_accepts_graphemes seg d.toNfa hn t).2 hl
    have k2 : m.invert.toNfa.acceptsGraphemes seg t = false := by
      rw [← Bool.not_eq_true, C60_nfa_accepts_graphemes seg _ hin t]
      exact (hcompl _ (Nfa.over_of_lang hl)).1 hl
    rw [k1, k2]; rfl
  have f2 : forEach (fun word => do
      check (!d.toNfa.acceptsGraphemes seg word)
      check (m.invert.toNfa.acceptsGraphemes seg word)) (rs'.filterMap id) = some () := by
    refine forEach_some (fun t ht => ?_)
    have hl := r2' t ht
    have k1 := (C60_nfa_accepts_graphemes seg m.invert.toNfa hin t).2 hl
    have hov := Nfa.over_of_lang hl
    rw [hia] at hov
    have k2 : d.toNfa.acceptsGraphemes seg t = false := by
      rw [← Bool.not_eq_true, C60_nfa_accepts_graphemes seg _ hn t]
      exact fun hc => (hcompl _ hov).1 hc hl
    rw [k1, k2]; rfl
  unfold nfaWords
  simp only [noeps, c1, m1, noeps', r1, r1', Option.bind_eq_bind, Option.bind_some]
  simp only [Option.bind_eq_bind] at f1 f2
  rw [f1]
  simp only [Option.bind_some]
  rw [f2]
  simp only [Option.bind_some, hit, hit', p1, q1, hna]
  rw [if_neg (by omega)]
  exact hmerge

/-- What the last loop detects: the enumeration of all words, taken for both, is caught at the second word. -/
example : FixedDfa 'a' 'f' drawnF ∧ nfaWords seg1 someOrders 4 1 8 drawnF = some () ∧
    nfaWords seg1 someOrders 4 1 7 drawnF = none ∧
    (do let a ← WordIter.new drawnF.toNfa
        mergeLoop 100 (CounterIter.new 1 5) (← a.next) (← a.next)) = none := ⟨drawnF_gen, by decide +kernel, by decide +kernel, by decide +kernel⟩

/-! ## Regular expressions -/

/-- **C79** What `regex` checks: whatever the crate regex does, the test passes iff the expression compiles there and the two agree with
the documented grammar about each string (without the characters that do not occur in the expression). -/
theorem C79_regex_iff (cl : Str → Nat) (hcl : Segmentation cl) (hb : BreaksAscii cl) (seg : Str → List Str) (hseg : BreaksLetters seg)
    (lib : Str → Option (Str → Bool)) (o : Orders) (ho : o.Ok) (text : Str) (h : RandomRegex Letter text)
    (tests : List Str) (ht : ∀ t ∈ tests, LetterString 'a' 'z' t) :
    ∃ L gs, ExprL cl text [] L gs ∧ (regexTest cl seg lib o text tests = some () ↔
      ∃ m, lib (['^', '('] ++ text ++ [')', '$']) = some m ∧ ∀ test ∈ tests,
        (m (test.filter (fun c => text.contains c)) = true ↔ (test.filter (fun c => text.contains c)).map (fun c => [c]) ∈ L)) := by
  have h' := h.mono (q := LetterOrSymbol) (fun _ hc => Or.inl hc)
  obtain ⟨L, gs, hL, _⟩ := randomRegex_expr hb h'
  refine ⟨L, gs, hL, ?_⟩
  have htrim : Trimmed text text := PropTests.trimmed_self (fun c hc => (randomRegex_chars h' c hc).elim (fun hc => (letter_facts hc).2.2.2) reserved_not_white)
  obtain ⟨t, t1⟩ := (C36_accepts_iff cl hcl text text htrim).2 ⟨L, gs, hL⟩
  obtain ⟨t2, _⟩ := C36_to_nfa cl hcl text text htrim t t1 L gs hL
  obtain ⟨c, c1, c2, c3, c4, _⟩ := C19_to_dfa t.toNfa (C35_to_nfa_valid t)
  obtain ⟨m, m1, m2, m3, m4, _⟩ := C16_minimize (o.idx 0) (o.idx 1) (o.idx 2) (ho.idx 0) (ho.idx 1) (ho.idx 2) c c2
  unfold regexTest
  simp only [t1, c1, m1, Option.bind_eq_bind, Option.bind_some]
  change (lib (['^', '('] ++ text ++ [')', '$'])).bind _ = _ ↔ _
  have key : ∀ test ∈ tests, (m.acceptsGraphemes seg (test.filter (fun c => text.contains c)) = true ↔
      (test.filter (fun c => text.contains c)).map (fun c => [c]) ∈ L) := by
    intro test htest
    have hl : ∀ c ∈ test.filter (fun c => text.contains c), Letter c := fun c hc => (ht test htest).2 c (List.mem_filter.1 hc).1
    rw [C60_dfa_accepts_graphemes seg m m2, hseg _ hl, m4, c4, ← C02_nfa_accepts_iff _ (C35_to_nfa_valid t), t2]
  cases hf : lib (['^', '('] ++ text ++ [')', '$']) with
  | none => simp
  | some f =>
    simp only [Option.bind_some, Option.some.injEq, exists_eq_left', forEach_iff, check_some, beq_iff_eq]
    constructor
    · intro hh test htest
      rw [← key test htest, hh test htest]
    · intro hh test htest
      rw [Bool.eq_iff_iff, key test htest]
      exact (hh test htest).symm

/-- **C79** `regex`: the DFA of the library and the crate regex agree, assuming that the crate implements the documented grammar
(for expressions of letters, parentheses, bars, `*` and `+`). -/
theorem C79_regex (cl : Str → Nat) (hcl : Segmentation cl) (hb : BreaksAscii cl) (seg : Str → List Str) (hseg : BreaksLetters seg)
    (lib : Str → Option (Str → Bool)) (hlib : LibAgrees cl lib) (o : Orders) (ho : o.Ok) (text : Str) (h : RandomRegex Letter text)
    (tests : List Str) (ht : ∀ t ∈ tests, LetterString 'a' 'z' t) : regexTest cl seg lib o text tests = some () := by
  obtain ⟨L, gs, hL, hiff⟩ := C79_regex_iff cl hcl hb seg hseg lib o ho text h tests ht
  obtain ⟨m, f1, f2⟩ := hlib text h
  exact hiff.2 ⟨m, f1, fun test htest => f2 L gs hL _ (fun c hc => (ht test htest).2 c (List.mem_filter.1 hc).1)⟩

/-- **C79** `regex_parse`. -/
theorem C79_regex_parse (cl : Str → Nat) (hcl : Segmentation cl) (hb : BreaksAscii cl) (text : Str)
    (h : RandomRegex LetterOrSymbol text) : regexParse cl text = some () := by
  obtain ⟨L, gs, hL, hgs⟩ := randomRegex_expr hb h
  have htrim : Trimmed text text := PropTests.trimmed_self (fun c hc => (randomRegex_chars h c hc).elim (fun hc => (letter_facts hc).2.2.2) reserved_not_white)
  obtain ⟨t, t1⟩ := (C36_accepts_iff cl hcl text text htrim).2 ⟨L, gs, hL⟩
  obtain ⟨rfl, rfl⟩ := (C36_language cl hcl text text htrim t t1 L gs).1 hL
  have hws : Trimmed (RegexTree.toText t) (RegexTree.toText t) := by
    refine PropTests.trimmed_self (fun c hc => ?_)
    rcases toText_chars t c hc with h1 | ⟨g, h1, h2⟩
    · exact reserved_not_white h1
    · obtain ⟨d, rfl, h3⟩ := hgs g h1
      rw [List.mem_singleton] at h2
      subst h2
      exact (letter_facts h3).2.2.2
  obtain ⟨t', p1, p2, p3⟩ := C37_roundtrip_ascii_partial cl hcl hb text t t1
    (fun g hg => by obtain ⟨c, rfl, hc⟩ := hgs g hg; exact ⟨c, rfl, (letter_facts hc).1, (letter_facts hc).2.1⟩) hws
  have hlang : ∀ w, t.toNfa.Lang w ↔ t'.toNfa.Lang w := by
    intro w
    rw [← C02_nfa_accepts_iff _ (C35_to_nfa_valid t), ← C02_nfa_accepts_iff _ (C35_to_nfa_valid t'), C34_to_nfa_accepts, C34_to_nfa_accepts]
    exact (p3 w).symm
  have hsame : SameElems t.toNfa.alphabet t'.toNfa.alphabet := by
    intro e
    rw [(C35_to_nfa_alphabet t).1, (C35_to_nfa_alphabet t').1, p2]
  obtain ⟨b, b1, b2⟩ := C20_nfa_equivalent_to t.toNfa t'.toNfa (C35_to_nfa_valid t) (C35_to_nfa_valid t')
  unfold regexParse
  simp only [t1, p1, b1, Option.bind_eq_bind, Option.bind_some]
  exact check_true (b2.2 ⟨hsame, hlang⟩)

/-- An expression as the generator makes it. -/
theorem random_sample : RandomRegex Letter c!"((a|(bc))*)+" := by
  have leaf : ∀ c, 'a' ≤ c ∧ c ≤ 'z' → RandomRegex Letter [c] := fun c hc => .leaf c hc
  refine .plus c!"(a|(bc))*" (.star c!"a|(bc)" (.bars [c!"a", c!"(bc)"] (by decide) ?_))
  intro t ht
  simp only [List.mem_cons, List.not_mem_nil, or_false] at ht
  rcases ht with rfl | rfl
  · exact leaf 'a' (by decide)
  · refine .group [c!"b", c!"c"] (by decide) ?_
    intro t ht
    simp only [List.mem_cons, List.not_mem_nil, or_false] at ht
    rcases ht with rfl | rfl
    · exact leaf 'b' (by decide)
    · exact leaf 'c' (by decide)

/-- The assumption about the crate regex can be met: the documented grammar gives one language to each expression. -/
theorem libAgrees_exists (cl : Str → Nat) (hcl : Segmentation cl) : ∃ lib, LibAgrees cl lib := by
  classical
  refine ⟨fun s => some (fun t => decide (∃ text L gs, s = ['^', '('] ++ text ++ [')', '$'] ∧ ExprL cl text [] L gs ∧
    t.map (fun c => [c]) ∈ L)), fun text h => ⟨_, rfl, fun L gs hL t _ => ?_⟩⟩
  rw [decide_eq_true_iff]
  constructor
  · rintro ⟨text', L', gs', e, hL', hm⟩
    have e' : text = text' := List.append_cancel_right (List.append_cancel_left (by simpa only [List.append_assoc] using e))
    subst e'
    have h' := h.mono (q := LetterOrSymbol) (fun _ hc => Or.inl hc)
    have htrim : Trimmed text text := PropTests.trimmed_self (fun c hc => (randomRegex_chars h' c hc).elim (fun hc => (letter_facts hc).2.2.2) reserved_not_white)
    obtain ⟨r, r1⟩ := (C36_accepts_iff cl hcl text text htrim).2 ⟨L, gs, hL⟩
    have l1 := (C36_to_nfa cl hcl text text htrim r r1 L gs hL).1
    have l2 := (C36_to_nfa cl hcl text text htrim r r1 L' gs' hL').1
    exact (l1 _).1 ((l2 _).2 hm)
  · exact fun hm => ⟨text, L, gs, rfl, hL, hm⟩

/-- A matcher for that expression only. -/
def starMatcher : Str → Bool
  | [] => true
  | 'a' :: r => starMatcher r
  | 'b' :: 'c' :: r => starMatcher r
  | _ => false

example : RandomRegex Letter c!"((a|(bc))*)+" ∧ RandomRegex LetterOrSymbol c!"((a|(bc))*)+" ∧ Segmentation cl1 ∧ BreaksAscii cl1 ∧
    regexTest cl1 seg1 (fun _ => some starMatcher) someOrders c!"((a|(bc))*)+" [c!"abcz", c!"ba", c!"zzz", c!"bcbca"] = some () ∧
    regexTest cl1 seg1 (fun _ => some (fun t => starMatcher (t ++ ['a', 'b', 'c']))) someOrders c!"((a|(bc))*)+" [c!"abcz", c!"ba", c!"zzz"] = some () ∧
    regexTest cl1 seg1 (fun _ => some (fun t => starMatcher (t ++ ['c']))) someOrders c!"((a|(bc))*)+" [c!"abcz"] = none ∧
    regexParse cl1 c!"((a|(bc))*)+" = some () :=
  ⟨random_sample, random_sample.mono (fun _ h => Or.inl h), cl1_seg, cl1_breaks, by decide +kernel, by decide +kernel, by decide +kernel,
    by decide +kernel⟩

/-! ## The test with fixed files -/

/-- **C79** What `test_subset_construction` checks, for arbitrary files: both are accepted and have the same alphabet and language. -/
theorem C79_subset_construction_iff (t1 t2 : Str) :
    subsetConstruction t1 t2 = some () ↔ ∃ p d q n, Fa.dfa t1 = some p ∧ Validate.dfa p = .ok d ∧ Fa.nfa t2 = some q ∧
      Validate.nfa q = .ok n ∧ SameElems d.alphabet n.alphabet ∧ ∀ w, d.Lang w ↔ n.Lang w := by
  unfold subsetConstruction
  cases h1 : Fa.dfa t1 with
  | none => simp
  | some p =>
    cases h2 : Validate.dfa p with
    | error e => simp [h2, unwrapOk]
    | ok d =>
      cases h3 : Fa.nfa t2 with
      | none => simp
      | some q =>
        cases h4 : Validate.nfa q with
        | error e => simp [h4, unwrapOk]
        | ok n =>
          have hd := (C38_content p d h2).2.1
          have hn := (C39_content q n h4).2.1
          obtain ⟨c, c1, c2, c3, c4, _⟩ := C19_to_dfa n hn
          obtain ⟨⟨b, b1⟩, b2⟩ := C11_dfa_equivalent_to d c hd c2
          rw [b1, Option.some.injEq, c3] at b2
          simp only [c4] at b2
          simp only [h2, h4, unwrapOk, c1, b1, Option.bind_eq_bind, Option.bind_some, check_some, b2]
          constructor
          · exact fun h => ⟨p, d, q, n, rfl, h2, rfl, h4, h⟩
          · rintro ⟨p', d', q', n', e1, e2, e3, e4, h⟩
            obtain rfl := Option.some.inj e1
            obtain rfl := Option.some.inj e3
            obtain rfl := Except.ok.inj (h2.symm.trans e2)
            obtain rfl := Except.ok.inj (h4.symm.trans e4)
            exact h

/-- dandy/tests/test_files/eq_to_nfa1.dfa. -/
def eqToNfa1 : Str := c!"      a b\n-> a  b c\n   b  d e\n   c  d f\n * d  d e\n * e  g h\n * f  d f\n * g  g h\n * h  h h"

/-- dandy/tests/test_files/nfa1.nfa. -/
def nfa1File : Str := c!"# An ε-NFA.\n\n     ε    a       b\n\n→ s₀ {}   {s₁}    {s₀ s₂}\n  s₁ {s₂} {s₄}    {s₃}\n  s₂ {}   {s₁ s₄} {s₃}\n  s₃ {s₅} {s₄ s₅} {}\n  s₄ {s₃} {}      {s₅}\n* s₅ {}   {s₅}    {s₅}\n\n# to dfa:\n#                      a                  b\n# -> {s0}              {s1 s2}            {s0 s2}\n#    {s1 s2}           {s1 s2 s3 s4 s5}   {s3 s5}\n#    {s0 s2}           {s1 s2 s3 s4 s5}   {s0 s2 s3 s5}\n#  * {s1 s2 s3 s4 s5}  {s1 s2 s3 s4 s5}   {s3 s5}\n#  * {s3 s5}           {s3 s4 s5}         {s5}\n#  * {s0 s2 s3 s5}     {s1 s2 s3 s4 s5}   {s0 s2 s3 s5}\n#  * {s3 s4 s5}        {s3 s4 s5}         {s5}\n#  * {s5}              {s5}               {s5}\n\n# renamed states: (see eq_to_nfa1.dfa)\n#       a b\n# -> a  b c\n#    b  d e\n#    c  d f\n#  * d  d e\n#  * e  g h\n#  * f  d f\n#  * g  g h\n#  * h  h h"

/-- **C79** `test_subset_construction` (a single case). -/
theorem C79_subset_construction : subsetConstruction eqToNfa1 nfa1File = some () := by decide +kernel

/-- **C67** The code of the readme runs without a failing assertion (a single case). -/
theorem C67_main1 : main1 = some () := by decide +kernel

/-! ## Instances of the theorems of this file -/

example := C79_dfa_table_reparse drawn drawn_gen
example := C79_nfa_table_reparse drawnN drawnN_gen
example := C79_dfa_minimize_eq someOrders someOrders_ok drawn drawn_gen
example := C79_dfa_to_nfa_to_dfa drawn drawn_gen
example := C79_nfa_to_dfa_to_nfa drawnN drawnN_gen
example := C79_nfa_remove_epsilon_transitions someOrders someOrders_ok drawnN drawnN_gen
example := C79_nfa_remove_unreachable_states someOrders someOrders_ok drawnN drawnN_gen
example := C79_dfa_binary_ops seg1 someOrders someOrders_ok drawnF drawnF drawnF_gen drawnF_gen [c!"face", c!"badge", []]
example := C79_nfa_binary_ops seg1 someOrders someOrders_ok drawnFN drawnFN drawnFN_gen drawnFN_gen [c!"face", c!"badge", []]
example := C79_dfa_self someOrders someOrders_ok drawnZ drawnZ_gen
example := C79_dfa_inversion_iff seg1 someOrders someOrders_ok drawnF drawnF_gen [c!"face", c!"badge", []]
example := C79_subset_construction_iff c!"a" c!"b"
example := C79_subset_construction 
example := C67_main1 

end Dandy
