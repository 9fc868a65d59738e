import Verif.Model.Chars
import Verif.Proofs.ParseDepth
import Verif.Props.RegexParser
import Verif.Props.Bench
/-! # C98: how deep the recursion of regular expressions goes -/

namespace Dandy
open Samples RegexParser

/-- **C98** The counted parser is the parser, and the bound on the nesting in the model never matters: every larger bound gives the same count. -/
theorem C98_enough (cl : Str → Nat) (h : Segmentation cl) (text : Str) (d : Nat) (hd : (trim text).length < d) :
    (RegexD.expression cl d).run (trim text) = fullRegex cl text ∧ RegexD.calls cl text = (RegexD.expression cl d).depth (trim text) := by
  refine ⟨?_, ?_⟩
  · rw [RegexD.expression_run]
    exact expression_depth h _ _ (Nat.le_refl _) _ _ hd (by omega)
  · exact (RegexD.same h (trim text).length _ d (by omega) hd).depth _ (Nat.le_refl _)

example : (trim c!" (a|(b)) ").length < 8 ∧ RegexD.calls cl1 c!" (a|(b)) " = 3 := by decide +kernel

private theorem trim_parts (text : Str) : ∃ a b, text = a ++ trim text ++ b ∧ (∀ c ∈ a, WhiteSpace c) ∧ ∀ c ∈ b, WhiteSpace c := by
  obtain ⟨a, b, h1, h2, h3, _⟩ := trimmed_trim text
  exact ⟨a, b, h1, h2, h3⟩

/-- **C98** Whatever the text, and whether or not it is a regular expression: there are never more calls of the recursive parser at once than
there are opening parentheses in the text, and one more. -/
theorem C98_at_most (cl : Str → Nat) (text : Str) : 1 ≤ RegexD.calls cl text ∧ RegexD.calls cl text ≤ text.count '(' + 1 := by
  have h := (nest_count cl (trim text) (trim text).length).le (trim text) (List.suffix_refl _)
  obtain ⟨a, b, e, _⟩ := trim_parts text
  have h2 : (trim text).count '(' ≤ text.count '(' := by
    conv => rhs; rw [e]
    simp only [List.count_append]
    omega
  unfold RegexD.calls
  refine ⟨?_, by omega⟩
  rw [RegexD.expression]
  simp

example : RegexD.calls cl1 c!"(a)(b)" = 2 ∧ c!"(a)(b)".count '(' = 2 ∧ RegexD.calls cl1 c!"a((|" = 3 ∧ regex cl1 c!"a((|" = none := by
  refine ⟨by decide +kernel, by decide, by decide +kernel, by rfl⟩

private theorem ws_plain {b : Str} (h : ∀ c ∈ b, WhiteSpace c) : ∀ c ∈ b, c ≠ '(' ∧ c ≠ ')' ∧ c ≠ '\\' := by
  intro c hc
  have := h c hc
  refine ⟨?_, ?_, ?_⟩ <;> (rintro rfl; revert this; unfold WhiteSpace; decide)

private theorem up_plain_tail {b : Str} (h : ∀ c ∈ b, c ≠ '(' ∧ c ≠ ')' ∧ c ≠ '\\') (u : Str) : up (u ++ b) = up u := by
  have hb := (neutral_plain h).2
  induction u using marks.induct with
  | case1 => exact hb
  | case2 =>
    cases b with
    | nil => rfl
    | cons c b =>
      rw [List.singleton_append, up_escape]
      rw [List.forall_mem_cons] at h
      rw [(neutral_plain h.2).2]
      rfl
  | case3 c r ih => rw [List.cons_append, List.cons_append, up_escape, up_escape, ih]
  | case4 c r h1 h2 ih =>
    have hc : c ≠ '\\' := by
      rintro rfl
      cases r with
      | nil => exact h1 rfl rfl
      | cons d r => exact h2 d r rfl rfl
    unfold up at ih ⊢
    rw [List.cons_append, marks_cons hc, marks_cons hc, upM, upM, ih]

private theorem nesting_trim (text : Str) : nesting text = up (trim text) := by
  obtain ⟨a, b, e, ha, hb⟩ := trim_parts text
  rw [nesting_eq]
  conv => lhs; rw [e]
  rw [up_plain_tail (ws_plain hb), (neutral_plain (ws_plain ha)).1, (neutral_plain (ws_plain ha)).2]
  omega

/-- **C98** A text without parentheses hidden in clusters: there are never more calls at once than parentheses open at once, and one more. -/
theorem C98_nesting (cl : Str → Nat) (h : Segmentation cl) (text : Str) (hn : NoHidden cl (trim text)) :
    RegexD.calls cl text ≤ nesting text + 1 := by
  rw [nesting_trim]
  exact (nest_up h hn (trim text).length).le (trim text) (List.suffix_refl _)

example : nesting c!"(a)((b)" = 2 ∧ RegexD.calls cl1 c!"(a)((b)" = 3 ∧ nesting c!"a)((b)" = 1 ∧ RegexD.calls cl1 c!"a)((b)" = 1 := by decide +kernel

/-- **C98** For a text that is a regular expression it is exactly this number. -/
theorem C98_exact (cl : Str → Nat) (h : Segmentation cl) (text : Str) (hn : NoHidden cl (trim text)) (t : RegexTree) (ht : regex cl text = some t) :
    RegexD.calls cl text = nesting text + 1 := by
  have h1 := (regex_some (trimmed_trim text)).1 ht
  rw [← RegexD.expression_run] at h1
  obtain ⟨u, k, e, ⟨_, hu⟩, hk⟩ := (nest_up h hn (trim text).length).ok (trim text) t [] (List.suffix_refl _) h1
  rw [List.append_nil] at e
  have h2 := C98_nesting cl h text hn
  have h3 := nesting_trim text
  unfold RegexD.calls at h2 ⊢
  rw [← e] at hu
  omega

example : ∃ t, regex cl1 c!" (a)(b(\\()*|c)\\) " = some t ∧ nesting c!" (a)(b(\\()*|c)\\) " = 2 ∧
    RegexD.calls cl1 c!" (a)(b(\\()*|c)\\) " = 3 := ⟨_, rfl, by decide +kernel, by decide +kernel⟩

/-- **C98** ASCII texts (without carriage returns) have no parentheses hidden in clusters. -/
theorem C98_ascii (cl : Str → Nat) (hb : BreaksAscii cl) (text : Str) (h : ∀ c ∈ text, c.toNat < 128 ∧ c ≠ '\r') : NoHidden cl (trim text) := by
  intro s hs
  obtain ⟨a, b, e, _⟩ := trim_parts text
  have hsub : ∀ c ∈ s, c ∈ text := by
    intro c hc
    have := hs.subset hc
    rw [e]
    simp [this]
  cases s with
  | nil => simp
  | cons c r =>
    rw [hb c r (h c (hsub c List.mem_cons_self)).1 (h c (hsub c List.mem_cons_self)).2 fun d hd =>
      .inl (h d (hsub d (List.mem_cons_of_mem _ (List.mem_of_mem_head? hd)))).1]
    simp

example : (∀ c ∈ c!"((\\(a)|b)", c.toNat < 128 ∧ c ≠ '\r') ∧ nesting c!"((\\(a)|b)" = 2 := by decide +kernel

private theorem first_tail {P : Unicode.Table} (hA : P.Ascii) (rest : Str) : ∀ (c : Char) (left cur : Str), cur ≠ [] →
    (∀ d ∈ c :: rest, P.gcb d ≠ .prepend) →
    ∃ w, (Unicode.segFrom P (c :: left) cur rest).head? = some (cur ++ w) ∧ w <+: rest ∧ ∀ d ∈ w, d ≠ '(' ∧ d ≠ ')' ∧ d ≠ '\\' := by
  induction rest with
  | nil => intro c left cur hne _; exact ⟨[], by simp [Unicode.segFrom, hne], List.nil_prefix, by simp⟩
  | cons d rest ih =>
    intro c left cur hne hp
    rw [List.forall_mem_cons] at hp
    unfold Unicode.segFrom
    split
    · next hk =>
      obtain ⟨w, h1, h2, h3⟩ := ih d (c :: left) (cur ++ [d]) (by simp) hp.2
      refine ⟨d :: w, by rw [h1]; simp, List.cons_prefix_cons.2 ⟨rfl, h2⟩, List.forall_mem_cons.2 ⟨?_, h3⟩⟩
      have key : ∀ e : Char, 32 ≤ e.toNat → e.toNat < 127 → d ≠ e := by
        rintro e he1 he2 rfl
        have g := hA.other d he1 he2
        have g2 := hA.pict d (by omega)
        have g3 := hA.incb d (by omega)
        have : Unicode.keeps P (c :: left) d = false := by
          unfold Unicode.keeps
          dsimp only
          have hpr : Unicode.pairRule (P.gcb c) (P.gcb d) = some false ∨ Unicode.pairRule (P.gcb c) (P.gcb d) = none := by
            rw [g]
            have := hp.1
            revert this
            cases P.gcb c <;> decide
          rcases hpr with e | e
          · rw [e]; rfl
          · rw [e]
            simp [Unicode.conjunct, Unicode.emoji, Unicode.flag, g, g2, g3]
        rw [this] at hk
        cases hk
      exact ⟨key _ (by decide) (by decide), key _ (by decide) (by decide), key _ (by decide) (by decide)⟩
    · exact ⟨[], by simp, List.nil_prefix, by simp⟩

/-- **C98** By the rules of Unicode, so have all texts without a character of the property Prepend. -/
theorem C98_unicode (P : Unicode.Table) (hA : P.Ascii) (text : Str) (h : ∀ c ∈ text, P.gcb c ≠ .prepend) :
    NoHidden (Unicode.firstCluster P) (trim text) := by
  intro s hs
  obtain ⟨a, b, e, _⟩ := trim_parts text
  have hsub : ∀ c ∈ s, P.gcb c ≠ .prepend := by
    intro c hc
    have := hs.subset hc
    exact h c (by rw [e]; simp [this])
  cases s with
  | nil => simp
  | cons c r =>
    obtain ⟨w, h1, h2, h3⟩ := first_tail hA r c [] [c] (by simp) hsub
    have : Unicode.firstCluster P (c :: r) = w.length + 1 := by
      unfold Unicode.firstCluster Unicode.graphemes Unicode.segFrom
      simp [Unicode.keeps, h1]
    rw [this, List.take_succ_cons, List.tail_cons, ← List.prefix_iff_eq_take.1 h2]
    exact h3

example : (∀ c ∈ c!"(e\u0301(👨\u200D👧)*)", sampleTable.gcb c ≠ .prepend) ∧ sampleTable.Ascii ∧ RegexD.calls (Unicode.firstCluster sampleTable) c!"(e\u0301(👨\u200D👧)*)" = 3 :=
  ⟨by decide +kernel, sampleTable_ascii, by decide +kernel⟩

/-- After such a character the parser sees no parenthesis. -/
example : ∃ t, regex (Unicode.firstCluster sampleTable) c!"\u0600(" = some t ∧ nesting c!"\u0600(" = 1 ∧ RegexD.calls (Unicode.firstCluster sampleTable) c!"\u0600(" = 1 :=
  ⟨_, rfl, by decide +kernel, by decide +kernel⟩

/-- **C98** The tree of an expression, and with it the recursion of `to_nfa`, `to_string`, `clone` and of dropping it, is at most four times as deep
as the recursion of the parser, and one more. -/
theorem C98_trees (cl : Str → Nat) (text : Str) (t : RegexTree) (ht : regex cl text = some t) : t.calls ≤ 4 * RegexD.calls cl text + 1 := by
  have h1 := (regex_some (trimmed_trim text)).1 ht
  rw [← RegexD.expression_run] at h1
  exact RegexD.tall cl _ _ _ _ h1

example : ∃ t, regex cl1 c!"a|b(a|bc+)+" = some t ∧ t.calls = 9 ∧ RegexD.calls cl1 c!"a|b(a|bc+)+" = 2 := ⟨_, rfl, by decide +kernel, by decide +kernel⟩

/-- **C98** The recursion of the functions that walk a tree is as deep as the tree: as the longest chain of parts of parts, beginning with the tree. -/
theorem C98_walk (t : RegexTree) :
    (∃ c : List RegexTree, c.head? = some t ∧ c.IsChain (fun a b => RegexTree.PartOf b a) ∧ c.length = t.calls) ∧
    ∀ c : List RegexTree, c.head? = some t → c.IsChain (fun a b => RegexTree.PartOf b a) → c.length ≤ t.calls := by
  constructor
  · generalize hk : t.calls = k
    induction k generalizing t with
    | zero => cases t <;> simp [RegexTree.calls] at hk
    | succ k ih =>
      rcases RegexTree.calls_step t with h | ⟨b, h1, h2⟩
      · exact ⟨[t], rfl, by simp, by simp; omega⟩
      · obtain ⟨c, h3, h4, h5⟩ := ih b (by omega)
        cases c with
        | nil => cases h3
        | cons b' c =>
          cases h3
          exact ⟨t :: b :: c, rfl, .cons_cons h1 h4, by simp_all⟩
  · intro c
    induction c generalizing t with
    | nil => intro h; cases h
    | cons a c ih =>
      intro h1 h2
      cases h1
      cases c with
      | nil => rcases RegexTree.calls_step a with h | ⟨b, _, h⟩ <;> simp <;> omega
      | cons b c =>
        have h3 := ih b rfl (List.isChain_cons_cons.1 h2).2
        have h4 := RegexTree.calls_part (List.isChain_cons_cons.1 h2).1
        simp only [List.length_cons] at h3 ⊢; omega

/-- In `a|(εb)*` a chain has four members: all, the repetition, the sequence, and a letter. -/
example : (RegexTree.alt [.chr (.grapheme ['a']), .rep (.seq [.chr .epsilon, .chr (.grapheme ['b'])])]).calls = 4 := by decide +kernel

private theorem trim_self {s : Str} (h1 : ∀ c ∈ s.head?, ¬ WhiteSpace c) (h2 : ∀ c ∈ s.getLast?, ¬ WhiteSpace c) : trim s = s :=
  trim_eq ⟨[], [], by simp, by simp, by simp, h1, h2⟩

/-- **C98** Nothing limits the recursion: a text of `n` opening parentheses, which is no regular expression, needs `n + 1` calls at once. -/
theorem C98_open (cl : Str → Nat) (n : Nat) : RegexD.calls cl (List.replicate n '(') = n + 1 := by
  have hws : ¬ WhiteSpace '(' := by unfold WhiteSpace; decide
  have ht : trim (List.replicate n '(') = List.replicate n '(' := by
    refine trim_self (fun c hc => ?_) (fun c hc => ?_)
    · have := List.eq_of_mem_replicate (List.mem_of_mem_head? hc)
      exact this ▸ hws
    · have := List.eq_of_mem_replicate (List.mem_of_mem_getLast? hc)
      exact this ▸ hws
  have key : ∀ n k, n < k → n + 1 ≤ (RegexD.expression cl k).depth (List.replicate n '(') := by
    intro n
    induction n with
    | zero =>
      intro k hk
      obtain ⟨k, rfl⟩ : ∃ e, k = e + 1 := ⟨k - 1, by omega⟩
      rw [RegexD.expression]
      simp
    | succ n ih =>
      intro k hk
      obtain ⟨k, rfl⟩ : ∃ e, k = e + 1 := ⟨k - 1, by omega⟩
      have h1 := ih k (by omega)
      have h2 := RegexD.depth_open cl k (List.replicate n '(')
      rw [List.replicate_succ]
      omega
  have h1 := (C98_at_most cl (List.replicate n '(')).2
  rw [List.count_replicate_self] at h1
  have h2 : n + 1 ≤ RegexD.calls cl (List.replicate n '(') := by
    unfold RegexD.calls
    rw [ht]
    exact key n _ (by simp)
  omega

example : regex cl1 (List.replicate 5 '(') = none := by rfl

/-- A letter in `n` pairs of parentheses. -/
def nested (n : Nat) : Str := List.replicate n '(' ++ 'a' :: List.replicate n ')'

private theorem nested_expr {cl : Str → Nat} (hb : BreaksAscii cl) (n k : Nat) :
    ExprL cl (List.replicate n '(' ++ 'a' :: List.replicate (n + k) ')') (List.replicate k ')') {[['a']]} [['a']] := by
  induction n generalizing k with
  | zero =>
    have h1 : cl ('a' :: List.replicate k ')') = 1 := hb 'a' _ (by decide) (by decide) fun d hd => by
      have := List.eq_of_mem_replicate (List.mem_of_mem_head? hd)
      subst this
      exact .inl (by decide)
    have h2 : AtomL cl ('a' :: List.replicate k ')') _ _ _ := .plain (by unfold IsReserved; decide)
    rw [h1] at h2
    simpa using ExprL.one (.one (.atom h2))
  | succ n ih =>
    have := ih (k + 1)
    rw [show n + 1 + k = n + (k + 1) by omega, List.replicate_succ (n := n), List.cons_append]
    exact .one (.one (.atom (.par (by simpa [List.replicate_succ] using this))))

private theorem up_nested (n : Nat) : up (nested n) = n := by
  have key : ∀ n k, up (List.replicate n '(' ++ 'a' :: List.replicate k ')') = n := by
    intro n k
    induction n with
    | zero =>
      rw [List.replicate_zero, List.nil_append, up_other (by decide) (by decide) (by decide)]
      induction k with
      | zero => rfl
      | succ k ih => rw [List.replicate_succ, up_close, ih]
    | succ n ih => rw [List.replicate_succ, List.cons_append, up_open, ih]
  exact key n n

/-- **C98** And so does the regular expression of a letter in `n` pairs of parentheses, which is accepted. -/
theorem C98_nested (cl : Str → Nat) (h : Segmentation cl) (hb : BreaksAscii cl) (n : Nat) :
    (∃ t, regex cl (nested n) = some t) ∧ (nested n).length = 2 * n + 1 ∧ RegexD.calls cl (nested n) = n + 1 := by
  have ht : Trimmed (nested n) (nested n) := by
    refine ⟨[], [], by simp, by simp, by simp, ?_, ?_⟩
    all_goals
      intro c hc
      have : c ∈ nested n := by first | exact List.mem_of_mem_head? hc | exact List.mem_of_mem_getLast? hc
      simp only [nested, List.mem_append, List.mem_cons, List.mem_replicate] at this
      rcases this with ⟨_, rfl⟩ | rfl | ⟨_, rfl⟩ <;> (unfold WhiteSpace; decide)
  have h1 := (C36_accepts_iff cl h (nested n) (nested n) ht).2 ⟨_, _, by simpa [nested] using nested_expr hb n 0⟩
  refine ⟨h1, by simp [nested]; omega, ?_⟩
  obtain ⟨t, h2⟩ := h1
  rw [C98_exact cl h (nested n) (C98_ascii cl hb _ ?_) t h2, nesting_eq, up_nested]
  intro c hc
  simp only [nested, List.mem_append, List.mem_cons, List.mem_replicate] at hc
  rcases hc with ⟨_, rfl⟩ | rfl | ⟨_, rfl⟩ <;> decide

example : nested 3 = c!"(((a)))" ∧ Segmentation cl1 ∧ BreaksAscii cl1 := ⟨by decide, cl1_seg, cl1_breaks⟩

end Dandy
