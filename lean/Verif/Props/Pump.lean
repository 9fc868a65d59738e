import Verif.Proofs.RegexPump
import Verif.Props.RegexParser
import Verif.Props.Finite
/-! # C128: what can be seen from the length of an expression -/

namespace Dandy
open RegexParser RegexTree Samples

private theorem pumps_text {cl : Str → Nat} (h : Segmentation cl) {text core : Str} (ht : Trimmed text core) {t : RegexTree}
    (hp : regex cl text = some t) : Phrase core [] {w : Word | Matches t w} := by
  obtain ⟨L, gs, hl⟩ := (C36_accepts_iff cl h text core ht).1 ⟨t, hp⟩
  obtain ⟨rfl, rfl⟩ := (C36_language cl h text core ht t hp L gs).1 hl
  exact phrase_expr h hl

private theorem text_pumps {cl : Str → Nat} (h : Segmentation cl) {text core : Str} (ht : Trimmed text core) {t : RegexTree}
    (hp : regex cl text = some t) : Pumps (exprSize core) {w : Word | Matches t w} := by
  obtain ⟨u, rfl, h1, _⟩ := pumps_text h ht hp
  simpa using h1

/-- **C128** If an expression is written with `m` characters other than parentheses, bars, stars and pluses, then every accepted word with more
than `m` elements has, within its first `m` elements, a part that can be left out or repeated as often as one likes. -/
theorem C128_pump (cl : Str → Nat) (h : Segmentation cl) (text core : Str) (ht : Trimmed text core) (t : RegexTree)
    (hp : regex cl text = some t) (w : Word) (hw : (toNfa t).accepts w = true) (hl : exprSize core < w.length) :
    ∃ x y z : Word, w = x ++ y ++ z ∧ (x ++ y).length ≤ exprSize core ∧ y ≠ [] ∧
      ∀ i, (toNfa t).accepts (x ++ (List.replicate i y).flatten ++ z) = true := by
  simp only [C34_to_nfa_accepts] at hw ⊢
  exact text_pumps h ht hp w hw hl

/-- **C128** So the language is finite exactly if no accepted word has more than `m` elements, and then there are at most
`1 + a + ... + a^m` words; it is infinite exactly if some accepted word has more than `m` and at most `2m` elements; and if any word is
accepted, one with at most `m` elements is. -/
theorem C128_lengths (cl : Str → Nat) (h : Segmentation cl) (text core : Str) (ht : Trimmed text core) (t : RegexTree)
    (hp : regex cl text = some t) :
    ({w | (toNfa t).accepts w = true}.Finite ↔ ∀ w, (toNfa t).accepts w = true → w.length ≤ exprSize core) ∧
    ({w | (toNfa t).accepts w = true}.Finite →
      {w | (toNfa t).accepts w = true}.ncard ≤ ∑ i ∈ Finset.range (exprSize core + 1), (toNfa t).alphabet.length ^ i) ∧
    ({w | (toNfa t).accepts w = true}.Infinite ↔ ∃ w, (toNfa t).accepts w = true ∧ exprSize core < w.length ∧ w.length ≤ 2 * exprSize core) ∧
    ((∃ w, (toNfa t).accepts w = true) → ∃ w, (toNfa t).accepts w = true ∧ w.length ≤ exprSize core) := by
  have key : ((∃ w, Matches t w) → ∃ w, Matches t w ∧ w.length ≤ exprSize core) ∧
      ((∃ w, Matches t w ∧ exprSize core < w.length) → ∃ w, Matches t w ∧ exprSize core < w.length ∧ w.length ≤ 2 * exprSize core) ∧
      ((∃ w, Matches t w ∧ exprSize core < w.length) → ∀ k, ∃ w, Matches t w ∧ k ≤ w.length) := (text_pumps h ht hp).finite_iff
  simp only [← C34_to_nfa_accepts] at key
  obtain ⟨h1, h2, h3⟩ := key
  have hset : {w | (toNfa t).accepts w = true} = {w | (toNfa t).Lang w} := by
    ext w; exact C02_nfa_accepts_iff _ (C35_to_nfa_valid t) w
  have hshort : (∀ w, (toNfa t).accepts w = true → w.length ≤ exprSize core) → ∀ w, (toNfa t).Lang w → w.length < exprSize core + 1 :=
    fun hs w hw => Nat.lt_succ_of_le (hs w ((C02_nfa_accepts_iff _ (C35_to_nfa_valid t) w).2 hw))
  have hfin : {w | (toNfa t).accepts w = true}.Finite ↔ ∀ w, (toNfa t).accepts w = true → w.length ≤ exprSize core := by
    constructor
    · intro hf
      by_contra hc
      push Not at hc
      have hall := h3 hc
      obtain ⟨b, hb⟩ := (hf.image List.length).bddAbove
      obtain ⟨w, hw, hk⟩ := hall (b + 1)
      have := hb ⟨w, hw, rfl⟩
      omega
    · intro hs
      rw [hset]
      exact (Nfa.finite_of_short _ (hshort hs)).1
  refine ⟨hfin, fun hf => ?_, ?_, fun hw => ?_⟩
  · have hs := hfin.1 hf
    rw [hset]
    exact (Nfa.finite_of_short _ (hshort hs)).2
  · rw [← Set.not_finite, hfin]
    push Not
    constructor
    · intro hw
      obtain ⟨w, h4, h5, h6⟩ := h2 hw
      exact ⟨w, h4, h5, h6⟩
    · rintro ⟨w, h4, h5, _⟩
      exact ⟨w, h4, h5⟩
  · obtain ⟨w, h4, h5⟩ := h1 hw
    exact ⟨w, h4, h5⟩

/-- **C128** Without star and plus, no accepted word has more elements than `m`. (An escaped star or plus counts as a star or plus here.) -/
theorem C128_no_operator (cl : Str → Nat) (h : Segmentation cl) (text core : Str) (ht : Trimmed text core) (t : RegexTree)
    (hp : regex cl text = some t) (hs : '*' ∉ core) (hq : '+' ∉ core) (w : Word) (hw : (toNfa t).accepts w = true) : w.length ≤ exprSize core := by
  obtain ⟨u, rfl, _, h2⟩ := pumps_text h ht hp
  rw [List.append_nil] at hs hq ⊢
  exact h2 hs hq w ((C34_to_nfa_accepts t w).1 hw)

/-- **C128** Enumerating the words of an expression (after removing the epsilon moves) comes to an end exactly if no word with more than `m`
and at most `2m` elements is accepted. -/
theorem C128_enumeration (cl : Str → Nat) (h : Segmentation cl) (text core : Str) (ht : Trimmed text core) (t : RegexTree)
    (hp : regex cl text = some t) (ordT : Nat → Nat → List Nat → List Nat) (hordT : ∀ s c l, (ordT s c l).Perm l)
    (ordDead : List Nat → List Nat) (hordDead : ∀ l, (ordDead l).Perm l) :
    ∃ n, (toNfa t).removeEpsilonMoves ordT ordDead = some n ∧
      ((∃ k rs, n.wordComponents k = some rs ∧ none ∈ rs) ↔
        ∀ w, (toNfa t).accepts w = true → exprSize core < w.length → 2 * exprSize core < w.length) := by
  obtain ⟨n, h1, h2, _, h4, _, h6, h7⟩ := C25_remove_epsilon_moves ordT hordT ordDead hordDead (toNfa t) (C35_to_nfa_valid t)
  refine ⟨n, h1, ?_⟩
  obtain ⟨_, _, h8, _⟩ := C128_lengths cl h text core ht t hp
  have hset : {w | n.Lang w} = {w | (toNfa t).accepts w = true} := by
    ext w
    change n.Lang w ↔ _
    rw [h6 w]
    exact (C02_nfa_accepts_iff _ (C35_to_nfa_valid t) w).symm
  rw [C84_words_end n h2 h4, hset, ← Set.not_infinite, h8]
  push Not
  rfl

private theorem letters_seq : ∀ m : Nat, ∀ r : Str, ∃ gs, SeqL cl1 (List.replicate (m + 1) 'a' ++ r) r {List.replicate (m + 1) ['a']} gs
  | 0, r => ⟨_, .one (.atom (.plain (cl := cl1) (c := 'a') (s := r) (by unfold IsReserved; decide)))⟩
  | m + 1, r => by
    obtain ⟨gs, h⟩ := letters_seq m r
    have h1 : AtomL cl1 ('a' :: (List.replicate (m + 1) 'a' ++ r)) (List.replicate (m + 1) 'a' ++ r) {[['a']]} [['a']] :=
      .plain (cl := cl1) (c := 'a') (s := List.replicate (m + 1) 'a' ++ r) (by unfold IsReserved; decide)
    have h2 := SeqL.cons (.atom h1) h
    have e : ({[['a']]} : Language Str) * {List.replicate (m + 1) ['a']} = {List.replicate (m + 1 + 1) ['a']} := by
      ext w
      rw [Language.mem_mul]
      constructor
      · rintro ⟨x, rfl, y, rfl, rfl⟩; exact rfl
      · rintro rfl; exact ⟨_, rfl, _, rfl, rfl⟩
    rw [e] at h2
    exact ⟨_, h2⟩

/-- **C128** The numbers cannot be improved: for every `m > 0` there is an expression with `m` such characters, and infinitely many accepted words,
which accepts no word with more than `m` and fewer than `2m` elements, and no nonempty word with fewer than `m`. -/
theorem C128_sharp (m : Nat) (hm : 0 < m) : ∃ text t, Trimmed text text ∧ regex cl1 text = some t ∧ exprSize text = m ∧
    {w | (toNfa t).accepts w = true}.Infinite ∧ ∀ w, (toNfa t).accepts w = true → m ∣ w.length := by
  obtain ⟨k, rfl⟩ : ∃ k, m = k + 1 := ⟨m - 1, by omega⟩
  obtain ⟨gs, hs⟩ := letters_seq k c!")*"
  have he : ExprL cl1 ('(' :: (List.replicate (k + 1) 'a' ++ c!")*")) [] (KStar.kstar {List.replicate (k + 1) ['a']}) gs :=
    .one (.one (.star (.par (.one hs))))
  have ht : Trimmed ('(' :: (List.replicate (k + 1) 'a' ++ c!")*")) ('(' :: (List.replicate (k + 1) 'a' ++ c!")*")) := by
    refine ⟨[], [], by simp, by simp, by simp, ?_, ?_⟩
    · intro c hc; cases hc; unfold WhiteSpace; decide
    · intro c hc
      rw [List.getLast?_cons, List.getLast?_append] at hc
      have : c = '*' := by simpa using hc.symm
      rw [this]
      unfold WhiteSpace; decide
  obtain ⟨t, htx⟩ := (C36_accepts_iff cl1 cl1_seg _ _ ht).2 ⟨_, _, he⟩
  obtain ⟨h1, _⟩ := (C36_language cl1 cl1_seg _ _ ht t htx _ _).1 he
  have hacc : ∀ w, (toNfa t).accepts w = true ↔ w ∈ (KStar.kstar {List.replicate (k + 1) ['a']} : Language Str) := by
    intro w
    rw [C34_to_nfa_accepts, h1]
    rfl
  refine ⟨_, t, ht, htx, ?_, ?_, ?_⟩
  · unfold exprSize
    rw [List.filter_cons_of_neg (by decide), List.filter_append, List.filter_eq_self.2 (by
      intro c hc
      rw [(List.mem_replicate.1 hc).2]
      decide)]
    simp
  · intro hf
    obtain ⟨b, hb⟩ := (hf.image List.length).bddAbove
    have := hb ⟨(List.replicate (b + 1) (List.replicate (k + 1) ['a'])).flatten, (hacc _).2 (Language.mem_kstar.2 ⟨_, rfl, fun y hy =>
      (List.mem_replicate.1 hy).2⟩), rfl⟩
    simp at this
    have h2 : (b + 1) * 1 ≤ (b + 1) * (k + 1) := Nat.mul_le_mul_left _ (by omega)
    omega
  · intro w hw
    obtain ⟨S, rfl, hS⟩ := Language.mem_kstar.1 ((hacc w).1 hw)
    clear hw
    induction S with
    | nil => simp
    | cons y S ih =>
      have hy : y = List.replicate (k + 1) ['a'] := hS y List.mem_cons_self
      rw [List.flatten_cons, List.length_append, hy, List.length_replicate]
      exact Nat.dvd_add (Nat.dvd_refl _) (ih fun y hy => hS y (List.mem_cons_of_mem _ hy))

/-- **C128** A star does not make the language infinite. -/
theorem C128_star_false : ∃ t, regex cl1 c!"a(ε|∅)*" = some t ∧ {w | (toNfa t).accepts w = true}.Finite := by
  refine ⟨_, rfl, ?_⟩
  have ht : Trimmed c!"a(ε|∅)*" c!"a(ε|∅)*" := ⟨[], [], by simp, by simp, by simp, by decide, by decide⟩
  refine Set.Finite.subset (Set.finite_singleton [['a']]) ?_
  intro w hw
  have hm := (C34_to_nfa_accepts _ w).1 hw
  obtain ⟨x, hx, y, hy, rfl⟩ : ∃ x, x ∈ ({[['a']]} : Language Str) ∧ ∃ y, y ∈ (KStar.kstar (1 + 0) : Language Str) ∧ x ++ y = w := by
    have he : ExprL cl1 c!"a(ε|∅)*" [] ({[['a']]} * KStar.kstar (1 + 0)) _ :=
      .one (.cons (.atom (.plain (cl := cl1) (c := 'a') (s := c!"(ε|∅)*") (by unfold IsReserved; decide)))
        (.one (.star (.par (.alt (.one (.atom .epsilon)) (.one (.one (.atom .empty))))))))
    obtain ⟨h1, _⟩ := (C36_language cl1 cl1_seg _ _ ht _ rfl _ _).1 he
    have h2 : w ∈ ({[['a']]} * KStar.kstar (1 + 0) : Language Str) := by rw [h1]; exact hm
    exact Language.mem_mul.1 h2
  have hy' : y = [] := by
    rw [add_zero, kstar_one] at hy
    exact hy
  rw [hy', hx]
  rfl

/-- An infinite language and a finite one; the fifth word of the first is longer than the text. -/
example : Trimmed c!" (ab|c)+d" c!"(ab|c)+d" ∧ exprSize c!"(ab|c)+d" = 4 ∧ (∃ t, regex cl1 c!" (ab|c)+d" = some t ∧
      (toNfa t).accepts [['c'], ['c'], ['a'], ['b'], ['d']] = true) ∧
    Trimmed c!"(a|ε)(b|\\c)" c!"(a|ε)(b|\\c)" ∧ '*' ∉ c!"(a|ε)(b|\\c)" ∧ '+' ∉ c!"(a|ε)(b|\\c)" ∧ exprSize c!"(a|ε)(b|\\c)" = 5 ∧
    ∃ t, regex cl1 c!"(a|ε)(b|\\c)" = some t ∧ (toNfa t).accepts [['a'], ['c']] = true := by
  refine ⟨⟨[' '], [], by decide, by decide, by simp, by decide, by decide⟩, by decide, ⟨_, rfl, by decide +kernel⟩,
    ⟨[], [], by decide, by decide, by simp, by decide, by decide⟩, by decide, by decide, by decide, _, rfl, by decide +kernel⟩

end Dandy
