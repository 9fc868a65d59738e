import Mathlib.Data.Fintype.BigOperators
import Mathlib.Data.Fintype.Card
import Verif.Spec.Sizes
import Verif.Proofs.RegexSize
import Verif.Props.RegexParser
import Verif.Props.DfaMinimize
import Verif.Props.DfaProduct
import Verif.Props.NfaProduct
import Verif.Props.NfaEps
import Verif.Props.NfaToDfa
import Verif.Props.Samples
/-! # C83: how large results can be -/

namespace Dandy
open Samples RegexTree RegexParser P

/-- **C83** The number of states of the NFA of a regular expression is at most `(4n - 3) * 2^p + 2`, if the trimmed text has `n` characters and
contains `+` `p` times. -/
theorem C83_regex_states (cl : Str → Nat) (h : Segmentation cl) (text core : Str) (ht : Trimmed text core) (t : RegexTree)
    (hp : regex cl text = some t) : (toNfa t).states.length ≤ (4 * core.length - 3) * 2 ^ core.count '+' + 2 := by
  obtain ⟨u, h1, x, h2, h3⟩ := expression_small h _ _ _ _ ((regex_some ht).1 hp)
  rw [List.append_nil] at h1
  subst h1
  rw [toNfa_count]
  have := Nat.mul_le_mul_right (2 ^ core.count '+') (show x ≤ 4 * core.length - 3 by omega)
  omega

/-- **C83** (partial) Without `+`, the number of states is linear: at most `4n - 1` for `n` characters. Missing: texts with `+`, for which it is
false (`C83_regex_linear_false`). -/
theorem C83_regex_linear_partial (cl : Str → Nat) (h : Segmentation cl) (text core : Str) (ht : Trimmed text core) (t : RegexTree)
    (hp : regex cl text = some t) (hplus : '+' ∉ core) : (toNfa t).states.length + 1 ≤ 4 * core.length := by
  obtain ⟨u, h1, x, h2, h3⟩ := expression_small h _ _ _ _ ((regex_some ht).1 hp)
  rw [List.append_nil] at h1
  subst h1
  rw [toNfa_count]
  rw [List.count_eq_zero_of_not_mem hplus] at h2
  omega

/-- The bounds are reached. -/
example : (regex cl1 c!"a").map (fun t => (toNfa t).states.length) = some (4 * 1 - 1) ∧
    (regex cl1 c!"ab").map (fun t => (toNfa t).states.length) = some (4 * 2 - 1) ∧
    (regex cl1 c!" (a|b)*a(a|b)").map (fun t => (toNfa t).states.length) = some 14 ∧
    (regex cl1 c!"a+").map (fun t => (toNfa t).states.length) = some 8 := by decide +kernel

private theorem nested_head {k : Nat} : ∃ c s, nestedPlus k = c :: s ∧ ¬ WhiteSpace c := by
  cases k with
  | zero => exact ⟨_, _, rfl, by decide⟩
  | succ k => exact ⟨_, _, rfl, by decide⟩

private theorem nested_last {k : Nat} : ∃ s c, nestedPlus k = s ++ [c] ∧ ¬ WhiteSpace c := by
  cases k with
  | zero => exact ⟨[], _, rfl, by decide⟩
  | succ k => exact ⟨c!"(" ++ nestedPlus k ++ c!")", '+', by simp [nestedPlus], by decide⟩

private theorem trimmed_self {t : Str} (h1 : ∃ c s, t = c :: s ∧ ¬ WhiteSpace c) (h2 : ∃ s c, t = s ++ [c] ∧ ¬ WhiteSpace c) : Trimmed t t := by
  refine ⟨[], [], by simp, by simp, by simp, ?_, ?_⟩
  · obtain ⟨c, s, rfl, h⟩ := h1
    intro d hd
    cases hd
    exact h
  · obtain ⟨s, c, rfl, h⟩ := h2
    intro d hd
    rw [List.getLast?_append] at hd
    cases hd
    exact h

private theorem nested_expr {cl : Str → Nat} (hcl : LettersApart cl) : ∀ (k : Nat) (r : Str), (∀ d ∈ r.head?, d.toNat < 128) →
    ∃ L gs, ItemL cl (nestedPlus k ++ r) r L gs ∧ gs.length = 2 ^ k
  | 0, r, hr => by
    have h := AtomL.plain (cl := cl) (c := 'a') (s := r) (by unfold IsReserved; decide)
    rw [hcl 'a' r (by decide) hr] at h
    exact ⟨_, _, .atom h, rfl⟩
  | k + 1, r, hr => by
    obtain ⟨L, gs, h1, h2⟩ := nested_expr hcl k (c!")+" ++ r) (by intro d hd; cases hd; decide)
    refine ⟨_, gs ++ gs, .plus (L := L) ?_, by rw [List.length_append, h2, Nat.pow_succ]; omega⟩
    have : nestedPlus (k + 1) ++ r = '(' :: (nestedPlus k ++ (c!")+" ++ r)) := by simp [nestedPlus]
    rw [this]
    exact .par (.one (.one h1))

mutual
private theorem graphemes_le : ∀ t : RegexTree, t.graphemes.length ≤ t.stateCount
  | .seq ts => by rw [graphemes, stateCount]; have := graphemesList_le ts; omega
  | .alt ts => by rw [graphemes, stateCount]; have := graphemesList_le ts; omega
  | .rep t => by rw [graphemes, stateCount]; have := graphemes_le t; omega
  | .chr (.grapheme _) => by rw [graphemes, stateCount]; rfl
  | .chr .epsilon => by rw [graphemes, stateCount]; exact Nat.zero_le _
  | .chr .empty => by rw [graphemes, stateCount]; exact Nat.zero_le _
private theorem graphemesList_le : ∀ ts : List RegexTree, (graphemesList ts).length ≤ stateCountList ts
  | [] => by rw [graphemesList, stateCountList]; rfl
  | t :: ts => by
    rw [graphemesList, stateCountList, List.length_append]
    have := graphemes_le t
    have := graphemesList_le ts
    omega
end

/-- **C83** With `+` it is not linear, not even polynomial: the parser copies what `+` is applied to, so `k` nested `+` in a text of `3k + 1`
characters give an expression with `2^k` elements, and an NFA with more than `2^k` states. -/
theorem C83_regex_linear_false (cl : Str → Nat) (h : Segmentation cl) (hcl : LettersApart cl) (k : Nat) :
    (nestedPlus k).length = 3 * k + 1 ∧
    ∃ t, regex cl (nestedPlus k) = some t ∧ t.graphemes.length = 2 ^ k ∧ 2 ^ k < (toNfa t).states.length := by
  constructor
  · induction k with
    | zero => rfl
    | succ k ih => simp only [nestedPlus, List.length_append, ih, List.length_cons, List.length_nil]; omega
  · obtain ⟨L, gs, h1, h2⟩ := nested_expr hcl k [] (by simp)
    rw [List.append_nil] at h1
    have ht : Trimmed (nestedPlus k) (nestedPlus k) := trimmed_self nested_head nested_last
    obtain ⟨t, h3⟩ := (C36_accepts_iff cl h _ _ ht).2 ⟨L, gs, .one (.one h1)⟩
    have h4 := ((C36_language cl h _ _ ht t h3 L gs).1 (.one (.one h1))).2
    subst h4
    refine ⟨t, h3, h2, ?_⟩
    rw [toNfa_count]
    have := graphemes_le t
    omega

private theorem cl1_apart : LettersApart cl1 := by intro c s _ _; simp [cl1]

private theorem cl2_apart : LettersApart cl2 := by
  intro c s h1 h2
  unfold cl2
  split
  · rename_i h; cases h
  · rename_i h; cases h; simp at h1
  · rename_i h
    cases h
    cases s with
    | nil => rfl
    | cons d s =>
      have h3 : d.toNat < 128 := h2 d rfl
      have h4 : (d == '́') = false := by
        rw [beq_eq_false_iff_ne]
        rintro rfl
        revert h3; decide
      simp [h4]

example : Segmentation cl1 ∧ LettersApart cl1 ∧ Segmentation cl2 ∧ LettersApart cl2 := ⟨cl1_seg, cl1_apart, cl2_seg, cl2_apart⟩
example : (regex cl1 (nestedPlus 4)).map (fun t => (t.graphemes.length, (toNfa t).states.length)) = some (16, 78) := by decide +kernel

private theorem sorted_length {kept : List Nat} {n : Nat} (h1 : kept.Pairwise (· < ·)) (h2 : ∀ q ∈ kept, q < n) : kept.length ≤ n := by
  have := nodup_subset_length_le (sorted_nodup h1) (K := List.range n) (fun x hx => List.mem_range.2 (h2 x hx))
  simpa using this

/-- **C83** Minimising and merging never give more states than there were. -/
theorem C83_minimize (ordU ord ordKeys : List Nat → List Nat) (hU : ∀ l, (ordU l).Perm l) (hord : ∀ l, (ord l).Perm l) (hK : ∀ l, (ordKeys l).Perm l)
    (d m m' : Dfa) (hd : d.WF) (hm : d.minimize ordU ord ordKeys = some m) (hm' : d.mergeNondistinguishableStates ord ordKeys = some m') :
    m.states.length ≤ m'.states.length ∧ m'.states.length ≤ d.states.length := by
  obtain ⟨x, h1, _, _, h4, h5⟩ := C16_minimize ordU ord ordKeys hU hord hK d hd
  rw [hm] at h1; cases h1
  obtain ⟨y, P, g1, g2, g3, g4, _, g6, g7⟩ := C15_merge ord ordKeys hord hK d hd
  rw [hm'] at g1; cases g1
  refine ⟨h5 m' g2 (by rw [g3]; exact fun _ => Iff.rfl) g4, ?_⟩
  rw [g7]
  obtain ⟨Q, k1, k2, k3, k4⟩ := C14_equivalence_classes d hd
  rw [g6] at k1; cases k1
  have := k3.length_eq
  rw [List.length_range, List.length_flatten] at this
  rw [← this]
  clear this k3 k4 g6 g7
  induction P with
  | nil => exact Nat.zero_le _
  | cons B P ih =>
    have h := List.length_pos_iff.2 (k2 B (by simp))
    have := ih (fun C hC => k2 C (List.mem_cons_of_mem _ hC))
    simp only [List.length_cons, List.map_cons, List.sum_cons]
    omega

example : (redundant.minimize id id id).map (·.states.length) = some 3 ∧
    (redundant.mergeNondistinguishableStates id id).map (·.states.length) = some 4 ∧ redundant.states.length = 6 := by decide

/-- **C83** The product of two NFAs with `n` and `m` states has less than `(n + 1)(m + 1)` states, so at most `n * m + n + m`, since a run may be
stuck in either, but not in both. -/
theorem C83_nfa_product (ord : List Nfa.OPair → List Nfa.OPair) (hord : ∀ l, (ord l).Perm l) (n o p : Nfa) (hn : n.WF) (ho : o.WF)
    (comb : Option NfaState → Option NfaState → Bool) (hp : Nfa.product ord n o comb = some (some p)) :
    p.states.length < (n.states.length + 1) * (o.states.length + 1) := by
  have hs : SameElems n.alphabet o.alphabet := by
    by_contra hc
    rw [(C23_product_none_iff ord hord n o hn ho comb).2.2 hc] at hp
    cases hp
  obtain ⟨ks, g, h1, hks, _⟩ := Nfa.product_eq hord hn ho hs comb
  rw [h1] at hp
  simp only [Option.some.injEq] at hp
  subst hp
  simp only [Nfa.prodN, List.length_map]
  have hnone : (none, none) ∉ ks := by
    intro hc
    have h2 := (hks.mem_iff _).1 hc
    generalize hk : ((none, none) : Nfa.OPair) = k at h2
    cases h2 with
    | refl => cases hk
    | tail h3 h4 =>
      subst hk
      rcases (Nfa.mem_psucc hn ho hs).1 h4 with ⟨_, _, _, _, h5⟩ | h5
      · exact h5 rfl
      · rcases Nfa.mem_pairEps.1 h5 with ⟨q, t, _, _, h6⟩ | ⟨q, t, _, _, h6⟩
        · exact absurd (congrArg Prod.fst h6) (by simp)
        · exact absurd (congrArg Prod.snd h6) (by simp)
  have := nodup_subset_length_le (List.nodup_cons.2 ⟨hnone, hks.nodup⟩)
    (K := (none :: (List.range n.states.length).map some) ×ˢ (none :: (List.range o.states.length).map some)) (by
      intro k hk'
      rcases List.mem_cons.1 hk' with rfl | hk
      · simp
      clear hk'
      have hb : Nfa.PBound n o k := by
        have h2 := (hks.mem_iff _).1 hk
        clear hk
        induction h2 with
        | refl => exact ⟨fun q hq => by cases hq; exact hn.init_lt, fun q hq => by cases hq; exact ho.init_lt⟩
        | tail _ h3 ih => exact Nfa.psucc_bound hn ho hs ih h3
      obtain ⟨a, b⟩ := k
      obtain ⟨h2, h3⟩ := hb
      refine List.mem_product.2 ⟨?_, ?_⟩
      · cases a with
        | none => simp
        | some q => simpa using h2 q rfl
      · cases b with
        | none => simp
        | some q => simpa using h3 q rfl)
  rw [List.length_product] at this
  simp only [List.length_cons, List.length_map, List.length_range] at this
  omega

/-- Two copies of a sample with 2 states: 8 of the 9 pairs. -/
example : (Nfa.product id stuckNfa stuckNfa (fun _ _ => true)).map (Option.map (·.states.length)) = some (some 8) := by decide

/-- **C83** Removing the epsilon moves of an NFA adds at most one state; so does optimising. -/
theorem C83_remove_epsilon_moves (ordU : List Nat → List Nat) (hordU : ∀ l, (ordU l).Perm l)
    (ordT : Nat → Nat → List Nat → List Nat) (hordT : ∀ s c l, (ordT s c l).Perm l)
    (ordDead : List Nat → List Nat) (hordDead : ∀ l, (ordDead l).Perm l) (n m m' : Nfa) (hn : n.WF)
    (h : n.removeEpsilonMoves ordT ordDead = some m) (h' : n.optimize ordU ordT ordDead = some m') :
    m.states.length ≤ n.states.length + 1 ∧ m'.states.length ≤ n.states.length + 1 := by
  have key : ∀ n m : Nfa, n.WF → n.removeEpsilonMoves ordT ordDead = some m → m.states.length ≤ n.states.length + 1 := by
    intro n m hn h
    cases he : n.hasEpsilonMoves with
    | false =>
      have := C25_untouched ordT ordDead n (by simpa [Nfa.hasEpsilonMoves] using he)
      rw [this] at h; cases h; omega
    | true =>
      obtain ⟨m', D, h1, h2, _⟩ := Nfa.removeEpsilonMoves_eq hordT hordDead hn he
      rw [h1] at h; cases h
      simp only [Nfa.restr, List.length_map]
      have h3 := sorted_length (keptOf_sorted m'.states.length D) (fun q hq => (mem_keptOf.1 hq).1)
      rcases h2.init with ⟨g, _⟩ | ⟨g, _⟩ <;> omega
  refine ⟨key n m hn h, ?_⟩
  obtain ⟨n', g1, g2, _, _, _, g6, _⟩ := C27_nfa_remove_unreachable ordU hordU n hn
  rw [Nfa.optimize, g1] at h'
  have h1 := key n' m' g2 h'
  have h2 := g6.length_le
  simp only [List.length_map] at h2
  omega

/-- Words of any length, by an epsilon move from a loop. -/
def loopNfa : Nfa := { alphabet := [s 'a'], states := [⟨s 'i', true, false, [1], [[0]]⟩, ⟨s 'f', false, true, [], [[]]⟩], initialState := 0 }

/-- One more state is sometimes made. -/
example : loopNfa.WF ∧ (loopNfa.removeEpsilonMoves (fun _ _ l => l) id).map (·.states.length) = some 3 ∧
    (loopNfa.optimize id (fun _ _ l => l) id).map (·.states.length) = some 3 := ⟨Nfa.wf_of_wfB (by decide), by decide, by decide⟩

/-! ## The blow-up of `to_dfa` cannot be avoided -/

private abbrev AB : Language Str := {[c!"a"]} + {[c!"b"]}

private theorem ab_atom {cl : Str → Nat} (hcl : LettersApart cl) (r : Str) : AtomL cl (c!"(a|b)" ++ r) r AB [c!"a", c!"b"] := by
  have ha := AtomL.plain (cl := cl) (c := 'a') (s := c!"|b)" ++ r) (by unfold IsReserved; decide)
  rw [hcl 'a' _ (by decide) (by intro d hd; cases hd; decide)] at ha
  have hb := AtomL.plain (cl := cl) (c := 'b') (s := c!")" ++ r) (by unfold IsReserved; decide)
  rw [hcl 'b' _ (by decide) (by intro d hd; cases hd; decide)] at hb
  exact .par (.alt (.one (.atom ha)) (.one (.one (.atom hb))))

private theorem abs_seq {cl : Str → Nat} (hcl : LettersApart cl) : ∀ k : Nat, ∃ gs,
    SeqL cl (List.replicate (k + 1) c!"(a|b)").flatten [] (AB ^ (k + 1)) gs
  | 0 => ⟨_, by rw [pow_one]; exact .one (.atom (by simpa using ab_atom hcl []))⟩
  | k + 1 => by
    obtain ⟨gs, h⟩ := abs_seq hcl k
    rw [pow_succ', List.replicate_succ, List.flatten_cons]
    exact ⟨_, .cons (.atom (ab_atom hcl _)) h⟩

private theorem lookBack_expr {cl : Str → Nat} (hcl : LettersApart cl) (k : Nat) : ∃ gs,
    ExprL cl (lookBack k) [] (KStar.kstar AB * ({[c!"a"]} * AB ^ k)) gs := by
  have hstar : ∀ r, ItemL cl (c!"(a|b)*" ++ r) r (KStar.kstar AB) _ := fun r => .star (ab_atom hcl ('*' :: r))
  have ha : ∀ r : Str, (∀ d ∈ r.head?, d.toNat < 128) → ItemL cl ('a' :: r) r {[c!"a"]} [c!"a"] := by
    intro r hr
    have ha := AtomL.plain (cl := cl) (c := 'a') (s := r) (by unfold IsReserved; decide)
    rw [hcl 'a' _ (by decide) hr] at ha
    exact .atom ha
  cases k with
  | zero =>
    rw [pow_zero, mul_one]
    exact ⟨_, .one (.cons (hstar c!"a") (.one (ha [] (by simp))))⟩
  | succ k =>
    obtain ⟨gs, h⟩ := abs_seq hcl k
    exact ⟨_, .one (.cons (hstar ('a' :: _)) (.cons (ha _ (by intro d hd; cases hd; decide)) h))⟩

private theorem mem_AB {w : Word} : w ∈ AB ↔ w = [c!"a"] ∨ w = [c!"b"] := Iff.rfl

private theorem mem_pow {k : Nat} {w : Word} : w ∈ AB ^ k ↔ w.length = k ∧ ∀ e ∈ w, e = c!"a" ∨ e = c!"b" := by
  induction k generalizing w with
  | zero =>
    rw [pow_zero, Language.mem_one]
    constructor
    · rintro rfl; simp
    · rintro ⟨h, _⟩; exact List.length_eq_zero_iff.1 h
  | succ k ih =>
    rw [pow_succ', Language.mem_mul]
    constructor
    · rintro ⟨a, ha, b, hb, rfl⟩
      obtain ⟨h1, h2⟩ := ih.1 hb
      rcases mem_AB.1 ha with rfl | rfl
      · refine ⟨by simp [h1], fun e he => ?_⟩
        rcases List.mem_cons.1 he with rfl | he
        · exact Or.inl rfl
        · exact h2 e he
      · refine ⟨by simp [h1], fun e he => ?_⟩
        rcases List.mem_cons.1 he with rfl | he
        · exact Or.inr rfl
        · exact h2 e he
    · rintro ⟨h1, h2⟩
      match w, h1 with
      | e :: w, h1 =>
        refine ⟨[e], mem_AB.2 ?_, w, ih.2 ⟨by simpa using h1, fun x hx => h2 x (List.mem_cons_of_mem _ hx)⟩, rfl⟩
        rcases h2 e (by simp) with rfl | rfl <;> simp

private theorem mem_star {w : Word} : w ∈ KStar.kstar AB ↔ ∀ e ∈ w, e = c!"a" ∨ e = c!"b" := by
  rw [Language.mem_kstar]
  constructor
  · rintro ⟨L, rfl, h⟩ e he
    obtain ⟨l, hl, hel⟩ := List.mem_flatten.1 he
    rcases mem_AB.1 (h l hl) with rfl | rfl
    · exact Or.inl (List.mem_singleton.1 hel)
    · exact Or.inr (List.mem_singleton.1 hel)
  · intro h
    refine ⟨w.map (fun e => [e]), ?_, ?_⟩
    · clear h
      induction w with
      | nil => rfl
      | cons e w ih => rw [List.map_cons, List.flatten_cons, ← ih]; rfl
    · intro l hl
      obtain ⟨e, he, rfl⟩ := List.mem_map.1 hl
      rcases h e he with rfl | rfl
      · exact mem_AB.2 (Or.inl rfl)
      · exact mem_AB.2 (Or.inr rfl)

private theorem mem_lookBack {k : Nat} {w : Word} : w ∈ KStar.kstar AB * ({[c!"a"]} * AB ^ k) ↔ LooksBack k w := by
  rw [Language.mem_mul]
  constructor
  · rintro ⟨x, hx, z, hz, rfl⟩
    obtain ⟨a, ha, y, hy, rfl⟩ := Language.mem_mul.1 hz
    cases ha
    rw [mem_star] at hx
    rw [mem_pow] at hy
    refine ⟨?_, x, y, rfl, hy.1⟩
    intro e he
    rcases List.mem_append.1 he with he | he
    · exact hx e he
    · rcases List.mem_cons.1 he with rfl | he
      · exact Or.inl rfl
      · exact hy.2 e he
  · rintro ⟨h, x, y, rfl, hy⟩
    refine ⟨x, mem_star.2 fun e he => h e (by simp [he]), _, Language.mem_mul.2 ⟨_, rfl, y, mem_pow.2 ⟨hy, fun e he => h e (by simp [he])⟩, rfl⟩, rfl⟩

/-- The letter for a bit. -/
private def letter (b : Bool) : Str := if b then c!"a" else c!"b"

private theorem letter_ab (b : Bool) : letter b = c!"a" ∨ letter b = c!"b" := by cases b <;> simp [letter]

/-- Any DFA for the language has many states. -/
private theorem looksBack_large (k : Nat) (d : Dfa) (hd : d.WF) (hl : ∀ w, d.Lang w ↔ LooksBack k w) : 2 ^ (k + 1) ≤ d.states.length := by
  classical
  let word : (Fin (k + 1) → Bool) → Word := fun u => (List.ofFn u).map letter
  have hlen : ∀ u, (word u).length = k + 1 := fun u => by simp [word]
  have hget : ∀ u (i : Fin (k + 1)), (word u)[i.1]? = some (letter (u i)) := by
    intro u i
    simp only [word, List.getElem?_map, List.getElem?_ofFn, dif_pos i.2, Option.map_some]
  have hletters : ∀ u, ∀ e ∈ word u, e = c!"a" ∨ e = c!"b" := by
    intro u e he
    obtain ⟨b, _, rfl⟩ := List.mem_map.1 he
    exact letter_ab b
  have hrun : ∀ u, ∃ q, d.runE d.initialState (word u) = some q := by
    intro u
    have : d.Lang (word u ++ c!"a" :: List.replicate k c!"a") := by
      rw [hl]
      refine ⟨?_, word u, _, rfl, by simp⟩
      intro e he
      rcases List.mem_append.1 he with he | he
      · exact hletters u e he
      · rcases List.mem_cons.1 he with rfl | he
        · exact Or.inl rfl
        · exact Or.inl (List.eq_of_mem_replicate he)
    obtain ⟨q, h1, _⟩ := (Dfa.lang_iff hd).1 this
    rw [Dfa.runE_append] at h1
    cases h2 : d.runE d.initialState (word u) with
    | none => rw [h2] at h1; cases h1
    | some q => exact ⟨q, rfl⟩
  choose f hf using hrun
  have hdiff : ∀ u v, f u = f v → ∀ i, u i = true → v i = true := by
    intro u v huv i hi
    have h1 : d.Lang (word u ++ List.replicate i.1 c!"a") := by
      rw [hl]
      refine ⟨?_, (word u).take i.1, (word u).drop (i.1 + 1) ++ List.replicate i.1 c!"a", ?_, ?_⟩
      · intro e he
        rcases List.mem_append.1 he with he | he
        · exact hletters u e he
        · exact Or.inl (List.eq_of_mem_replicate he)
      · have h2 := hget u i
        rw [hi] at h2
        obtain ⟨h3, h4⟩ := List.getElem?_eq_some_iff.1 h2
        have h5 : (word u).drop i.1 = c!"a" :: (word u).drop (i.1 + 1) := by
          rw [List.drop_eq_getElem_cons h3, h4]; rfl
        rw [← List.cons_append, ← h5, ← List.append_assoc, List.take_append_drop]
      · have := i.2
        rw [List.length_append, List.length_drop, hlen, List.length_replicate]; omega
    have h2 : d.Lang (word v ++ List.replicate i.1 c!"a") := by
      rw [Dfa.lang_iff hd, Dfa.runE_append, hf] at h1 ⊢
      rw [← huv]
      exact h1
    obtain ⟨_, x, y, h3, h4⟩ := (hl _).1 h2
    have h5 : x.length = i.1 := by
      have := congrArg List.length h3
      simp only [List.length_append, List.length_cons, List.length_replicate, hlen, h4] at this
      omega
    have h6 : (word v ++ List.replicate i.1 c!"a")[i.1]? = some c!"a" := by
      rw [h3, ← h5]; simp
    rw [List.getElem?_append_left (by rw [hlen]; exact i.2), hget] at h6
    cases hb : v i with
    | true => rfl
    | false => rw [hb] at h6; exact absurd h6 (by decide)
  have hinj : Function.Injective (fun u => (⟨f u, Dfa.runE_lt hd hd.init_lt (hf u)⟩ : Fin d.states.length)) := by
    intro u v huv
    have huv : f u = f v := congrArg Fin.val huv
    funext i
    cases h1 : u i with
    | true => exact (hdiff u v huv i h1).symm
    | false =>
      cases h2 : v i with
      | false => rfl
      | true => rw [hdiff v u huv.symm i h2] at h1; cases h1
  have := Fintype.card_le_of_injective _ hinj
  rw [Fintype.card_fun, Fintype.card_fin, Fintype.card_fin, Fintype.card_bool] at this
  exact this

private theorem lookBack_head {k : Nat} : ∃ c s, lookBack k = c :: s ∧ ¬ WhiteSpace c := ⟨_, _, rfl, by decide⟩

private theorem lookBack_last {k : Nat} : ∃ s c, lookBack k = s ++ [c] ∧ ¬ WhiteSpace c := by
  cases k with
  | zero => exact ⟨c!"(a|b)*", 'a', rfl, by decide⟩
  | succ k =>
    refine ⟨c!"(a|b)*a" ++ (List.replicate k c!"(a|b)").flatten ++ c!"(a|b", ')', ?_, by decide⟩
    simp [lookBack, List.replicate_succ']

private theorem lookBack_length (k : Nat) : (lookBack k).length = 5 * k + 7 := by
  simp [lookBack]; omega

/-- **C83** Determinising can be exponential however it is done: for every `k` there is a text of `5k + 7` characters whose NFA has at most
`20k + 27` states, while `to_dfa` of it, the minimised result, and every valid DFA with the same language have at least `2^(k+1)` states. -/
theorem C83_to_dfa_large (cl : Str → Nat) (h : Segmentation cl) (hcl : LettersApart cl) (k : Nat) :
    (lookBack k).length = 5 * k + 7 ∧
    ∃ t, regex cl (lookBack k) = some t ∧ (∀ w, (toNfa t).accepts w = true ↔ LooksBack k w) ∧
      (toNfa t).states.length ≤ 20 * k + 27 ∧
      (∀ d, (toNfa t).toDfa = some d → 2 ^ (k + 1) ≤ d.states.length ∧
        ∀ (ordU ord ordKeys : List Nat → List Nat), (∀ l, (ordU l).Perm l) → (∀ l, (ord l).Perm l) → (∀ l, (ordKeys l).Perm l) →
          ∀ m, d.minimize ordU ord ordKeys = some m → 2 ^ (k + 1) ≤ m.states.length) ∧
      ∀ d : Dfa, d.WF → (∀ w, d.accepts w = (toNfa t).accepts w) → 2 ^ (k + 1) ≤ d.states.length := by
  refine ⟨lookBack_length k, ?_⟩
  obtain ⟨gs, hl⟩ := lookBack_expr hcl k
  have ht : Trimmed (lookBack k) (lookBack k) := trimmed_self lookBack_head lookBack_last
  obtain ⟨t, h1⟩ := (C36_accepts_iff cl h _ _ ht).2 ⟨_, gs, hl⟩
  have hacc : ∀ w, (toNfa t).accepts w = true ↔ LooksBack k w := fun w =>
    ((C36_to_nfa cl h _ _ ht t h1 _ gs hl).1 w).trans mem_lookBack
  have hwf : (toNfa t).WF := toNfa_wf t
  have hlang : ∀ w, (toNfa t).Lang w ↔ LooksBack k w := fun w => by rw [← C02_nfa_accepts_iff _ hwf]; exact hacc w
  refine ⟨t, h1, hacc, ?_, ?_, ?_⟩
  · have hplus : '+' ∉ lookBack k := by
      intro hm
      rcases List.mem_append.1 hm with hm | hm
      · revert hm; decide
      · obtain ⟨l, hl, hm⟩ := List.mem_flatten.1 hm
        rw [List.eq_of_mem_replicate hl] at hm
        revert hm; decide
    have := C83_regex_linear_partial cl h _ _ ht t h1 hplus
    rw [lookBack_length] at this
    omega
  · intro d hd
    obtain ⟨d', g1, g2, g3, g4, _⟩ := C19_to_dfa _ hwf
    rw [hd] at g1; cases g1
    refine ⟨looksBack_large k d g2 (fun w => (g4 w).trans (hlang w)), ?_⟩
    intro ordU ord ordKeys hU ho hK m hm
    obtain ⟨m', k1, k2, _, k4, _⟩ := C16_minimize ordU ord ordKeys hU ho hK d g2
    rw [hm] at k1; cases k1
    exact looksBack_large k m k2 (fun w => (k4 w).trans ((g4 w).trans (hlang w)))
  · intro d hd hda
    refine looksBack_large k d hd (fun w => ?_)
    rw [← C01_dfa_accepts_iff d hd, hda, hacc]

example : (regex cl1 (lookBack 2)).bind (fun t => (toNfa t).toDfa.bind (fun d =>
    (d.minimize id id id).map (fun m => ((lookBack 2).length, (toNfa t).states.length, d.states.length, m.states.length)))) =
    some (17, 18, 9, 8) := by decide +kernel

/-! ## Instances of the theorems of this file -/

example := C83_regex_states cl1 cl1_seg c!" a|b\n" c!"a|b" ⟨[' '], ['\n'], rfl, by decide, by decide, by decide, by decide⟩ _ rfl

end Dandy
