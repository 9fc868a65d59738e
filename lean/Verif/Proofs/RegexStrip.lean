import Verif.Proofs.RegexPrint
/-! # What printing and parsing does to white space at the ends of an expression -/

namespace Dandy
open RegexParser P RegexTree

instance (c : Char) : Decidable (WhiteSpace c) := inferInstanceAs (Decidable (_ ∈ _))

theorem regex_some {cl : Str → Nat} {text core : Str} {t : RegexTree} (ht : Trimmed text core) :
    regex cl text = some t ↔ expression cl (core.length + 1) core = some (t, []) := by
  unfold regex
  rw [allConsuming_some]
  unfold fullRegex
  rw [trim_eq ht]

theorem seqText_append (xs ys : List RegexTree) : seqText (xs ++ ys) = seqText xs ++ seqText ys := by
  induction xs with
  | nil => rw [seqText]; rfl
  | cons x xs ih => rw [List.cons_append, seqText, ih, seqText, List.append_assoc]

theorem denoteSeq_append (xs ys : List RegexTree) : denoteSeq (xs ++ ys) = denoteSeq xs * denoteSeq ys := by
  induction xs with
  | nil => rw [List.nil_append, denoteSeq, one_mul]
  | cons x xs ih => rw [List.cons_append, denoteSeq, ih, denoteSeq, mul_assoc]

theorem graphemesList_append (xs ys : List RegexTree) : graphemesList (xs ++ ys) = graphemesList xs ++ graphemesList ys := by
  induction xs with
  | nil => rw [graphemesList]; rfl
  | cons x xs ih => rw [List.cons_append, graphemesList, ih, graphemesList, List.append_assoc]

theorem properList_append (xs ys : List RegexTree) : ProperList (xs ++ ys) ↔ ProperList xs ∧ ProperList ys := by
  simp only [properList_iff, List.mem_append, or_imp, forall_and]

/-- Not a sequence. -/
def NotSeq : RegexTree → Prop
  | .seq _ => False
  | _ => True

mutual
/-- A proper tree is a sequence of trees that are no sequences. -/
theorem exists_items : ∀ t : RegexTree, Proper t → ∃ xs : List RegexTree, xs ≠ [] ∧ (∀ x ∈ xs, NotSeq x) ∧ ProperList xs ∧
    seqText xs = toText t ∧ denoteSeq xs = t.denote ∧ graphemesList xs = t.graphemes
  | .seq ts, h => by
    rw [Proper] at h
    obtain ⟨xs, h1, h2, h3, h4, h5, h6⟩ := exists_items_list ts h.2
    exact ⟨xs, h1 h.1, h2, h3, by rw [toText, h4], by rw [denote, h5], by rw [graphemes, h6]⟩
  | .alt ts, h => ⟨[.alt ts], by simp, by simp [NotSeq], by rw [properList_iff]; simpa using h, by simp [seqText], denoteSeq_single _,
      graphemesList_single _⟩
  | .rep t, h => ⟨[.rep t], by simp, by simp [NotSeq], by rw [properList_iff]; simpa using h, by simp [seqText], denoteSeq_single _,
      graphemesList_single _⟩
  | .chr c, h => ⟨[.chr c], by simp, by simp [NotSeq], by rw [properList_iff]; simpa using h, by simp [seqText], denoteSeq_single _,
      graphemesList_single _⟩

theorem exists_items_list : ∀ ts : List RegexTree, ProperList ts → ∃ xs : List RegexTree, (ts ≠ [] → xs ≠ []) ∧ (∀ x ∈ xs, NotSeq x) ∧
    ProperList xs ∧ seqText xs = seqText ts ∧ denoteSeq xs = denoteSeq ts ∧ graphemesList xs = graphemesList ts
  | [], _ => ⟨[], by simp, by simp, by rw [ProperList]; trivial, rfl, rfl, rfl⟩
  | t :: ts, h => by
    rw [ProperList] at h
    obtain ⟨xs, h1, h2, h3, h4, h5, h6⟩ := exists_items t h.1
    obtain ⟨ys, _, g2, g3, g4, g5, g6⟩ := exists_items_list ts h.2
    refine ⟨xs ++ ys, fun _ => by simp [h1], ?_, (properList_append _ _).2 ⟨h3, g3⟩, ?_, ?_, ?_⟩
    · intro x hx
      rcases List.mem_append.1 hx with hx | hx
      · exact h2 x hx
      · exact g2 x hx
    · rw [seqText_append, h4, g4, seqText]
    · rw [denoteSeq_append, h5, g5, denoteSeq]
    · rw [graphemesList_append, h6, g6, graphemesList]
end

/-- The item is a grapheme of white space. -/
def Blank (x : RegexTree) : Prop := ∃ g, x = .chr (.grapheme g) ∧ ∀ c ∈ g, WhiteSpace c

/-- A list without the items satisfying `p` at its ends. -/
theorem strip_ends {α : Type} (p : α → Prop) (xs : List α) : ∃ a m b, xs = a ++ m ++ b ∧ (∀ x ∈ a, p x) ∧ (∀ x ∈ b, p x) ∧
    (∀ x ∈ m.head?, ¬ p x) ∧ (∀ x ∈ m.getLast?, ¬ p x) := by
  classical
  have front : ∀ xs : List α, ∃ a m, xs = a ++ m ∧ (∀ x ∈ a, p x) ∧ (∀ x ∈ m.head?, ¬ p x) := by
    intro xs
    induction xs with
    | nil => exact ⟨[], [], rfl, by simp, by simp⟩
    | cons x xs ih =>
      by_cases hx : p x
      · obtain ⟨a, m, rfl, h1, h2⟩ := ih
        exact ⟨x :: a, m, rfl, by simpa [hx] using h1, h2⟩
      · exact ⟨[], x :: xs, rfl, by simp, by simpa using hx⟩
  obtain ⟨a, m, rfl, h1, h2⟩ := front xs
  obtain ⟨b, k, h3, h4, h5⟩ := front m.reverse
  have e : m = k.reverse ++ b.reverse := by
    rw [← List.reverse_append, ← h3, List.reverse_reverse]
  refine ⟨a, k.reverse, b.reverse, by rw [e, List.append_assoc], h1, by simpa using h4, ?_, ?_⟩
  · intro x hx
    apply h2 x
    rw [e]
    cases hk : k.reverse with
    | nil => rw [hk] at hx; cases hx
    | cons y ys => rw [hk] at hx; exact hx
  · intro x hx
    rw [List.getLast?_reverse] at hx
    exact h5 x hx

/-- Graphemes are of white space, or do not begin or end with it. -/
def CleanEnds (G : List Str) : Prop :=
  ∀ g ∈ G, (∀ c ∈ g, WhiteSpace c) ∨ (∀ c ∈ g.head?, ¬ WhiteSpace c) ∧ ∀ c ∈ g.getLast?, ¬ WhiteSpace c

theorem reserved_not_white {c : Char} (h : IsReserved c) : ¬ WhiteSpace c := by
  unfold IsReserved at h
  unfold WhiteSpace
  rcases h with rfl | rfl | rfl | rfl | rfl | rfl | rfl | rfl <;> decide

/-- The text of an item that is not blank does not begin or end with white space. -/
theorem item_ends {cl : Str → Nat} {G : List Str} (hG : Readable cl G) (hE : CleanEnds G) {x : RegexTree} (hn : NotSeq x)
    (hg : ∀ g ∈ x.graphemes, g ∈ G) (hb : ¬ Blank x) :
    toText x ≠ [] ∧ (∀ c ∈ (toText x).head?, ¬ WhiteSpace c) ∧ ∀ c ∈ (toText x).getLast?, ¬ WhiteSpace c := by
  match x, hn with
  | .alt ts, _ =>
    rw [toText]
    rw [List.getLast?_concat]
    exact ⟨by simp, by simp [WhiteSpace], by simp [WhiteSpace]⟩
  | .rep t, _ =>
    rw [toText]
    rw [List.getLast?_concat]
    exact ⟨by simp, by simp [WhiteSpace], by simp [WhiteSpace]⟩
  | .chr .epsilon, _ => rw [toText]; exact ⟨by decide, by decide, by decide⟩
  | .chr .empty, _ => rw [toText]; exact ⟨by decide, by decide, by decide⟩
  | .chr (.grapheme g), _ =>
    have hgG : g ∈ G := hg g (by rw [graphemes]; simp)
    rw [toText]
    have key : g ≠ [] ∧ (∀ c ∈ g.head?, ¬ WhiteSpace c) ∧ ∀ c ∈ g.getLast?, ¬ WhiteSpace c := by
      refine ⟨?_, ?_⟩
      · rcases hG.shape g hgG with ⟨c, g', rfl, _⟩ | ⟨c, rfl, _⟩ <;> simp
      · rcases hE g hgG with h | h
        · exact absurd ⟨g, rfl, h⟩ hb
        · exact h
    unfold graphemeText
    split
    · refine ⟨by simp, by simp [WhiteSpace], ?_⟩
      intro c hc
      rw [List.getLast?_cons_of_ne_nil key.1] at hc
      exact key.2.2 c hc
    · exact key

/-- A blank grapheme is printed as it is. -/
theorem blank_text {cl : Str → Nat} {G : List Str} (hG : Readable cl G) {g : Str} (hg : g ∈ G) (hb : ∀ c ∈ g, WhiteSpace c) :
    graphemeText g = g := by
  rcases hG.shape g hg with ⟨c, g', rfl, hc⟩ | ⟨c, rfl, hc, _⟩
  · unfold graphemeText
    rw [if_neg]
    simp only [List.headD_cons, Bool.and_eq_true, not_and]
    intro _ hx
    exact hc ((reserved_iff c).1 hx)
  · exact absurd (hb c (by simp)) (reserved_not_white hc)

/-- A sequence of blank items. -/
theorem blank_items {cl : Str → Nat} {G : List Str} (hG : Readable cl G) : ∀ {xs : List RegexTree}, (∀ x ∈ xs, Blank x) →
    (∀ g ∈ graphemesList xs, g ∈ G) →
    seqText xs = (graphemesList xs).flatten ∧ denoteSeq xs = {graphemesList xs} ∧ ∀ g ∈ graphemesList xs, ∀ c ∈ g, WhiteSpace c
  | [], _, _ => ⟨by rw [seqText, graphemesList]; rfl, by rw [denoteSeq, graphemesList]; rfl, by rw [graphemesList]; simp⟩
  | x :: xs, h, hg => by
    obtain ⟨g, rfl, hb⟩ := h _ List.mem_cons_self
    rw [graphemesList] at hg
    have h1 := blank_items hG (xs := xs) (fun x hx => h x (List.mem_cons_of_mem _ hx)) (fun g hm => hg g (List.mem_append_right _ hm))
    have hgG : g ∈ G := hg g (List.mem_append_left _ (by rw [graphemes]; simp))
    refine ⟨?_, ?_, ?_⟩
    · rw [seqText, toText, blank_text hG hgG hb, h1.1, graphemesList, graphemes]; simp
    · rw [denoteSeq, denote, h1.2.1, graphemesList, graphemes]
      ext w
      rw [Language.mem_mul]
      constructor
      · rintro ⟨a, rfl, b, rfl, rfl⟩; exact rfl
      · rintro rfl; exact ⟨_, rfl, _, rfl, rfl⟩
    · rw [graphemesList, graphemes]
      intro g' hg' c hc
      rcases List.mem_append.1 hg' with hg' | hg'
      · rw [List.mem_singleton] at hg'
        subst hg'
        exact hb c hc
      · exact h1.2.2 g' hg' c hc

theorem items_head {xs : List RegexTree} {p : Char → Prop} (hx : ∀ x ∈ xs.head?, toText x ≠ [] ∧ ∀ c ∈ (toText x).head?, p c) :
    ∀ c ∈ (seqText xs).head?, p c := by
  cases xs with
  | nil => rw [seqText]; simp
  | cons x xs =>
    obtain ⟨h1, h2⟩ := hx x rfl
    rw [seqText]
    cases hx' : toText x with
    | nil => exact absurd hx' h1
    | cons c t => rw [hx'] at h2; exact h2

theorem items_last {xs : List RegexTree} {p : Char → Prop} (hx : ∀ x ∈ xs.getLast?, toText x ≠ [] ∧ ∀ c ∈ (toText x).getLast?, p c) :
    ∀ c ∈ (seqText xs).getLast?, p c := by
  rcases List.eq_nil_or_concat xs with rfl | ⟨ys, x, rfl⟩
  · rw [seqText]; simp
  · obtain ⟨h1, h2⟩ := hx x (by simp)
    rw [List.concat_eq_append, seqText_append, seqText, seqText, List.append_nil, List.getLast?_append_of_ne_nil _ h1]
    exact h2

/-- Printing and parsing: the white space at the ends of the printed text is lost, and nothing else. -/
theorem strip_spec {cl : Str → Nat} (h : Segmentation cl) {t : RegexTree} (hp : Proper t) (hG : Readable cl t.graphemes)
    (hE : CleanEnds t.graphemes) : ∃ a b : List Str, ∃ core : Str, (∀ g ∈ a ++ b, ∀ c ∈ g, WhiteSpace c) ∧
      toText t = a.flatten ++ core ++ b.flatten ∧ Trimmed (toText t) core ∧
      (core = [] ∧ regex cl (toText t) = none ∧ (∀ w, Matches t w ↔ w = a ++ b) ∨
        core ≠ [] ∧ ∃ t', regex cl (toText t) = some t' ∧ t.graphemes = a ++ t'.graphemes ++ b ∧
          ∀ w, Matches t w ↔ ∃ v, Matches t' v ∧ w = a ++ v ++ b) := by
  obtain ⟨xs, h1, h2, h3, h4, h5, h6⟩ := exists_items t hp
  obtain ⟨a, m, b, rfl, ha, hb, hm1, hm2⟩ := strip_ends Blank xs
  have hsub : ∀ g ∈ graphemesList (a ++ m ++ b), g ∈ t.graphemes := fun g hg => h6 ▸ hg
  rw [graphemesList_append, graphemesList_append] at hsub
  have ga : ∀ g ∈ graphemesList a, g ∈ t.graphemes := fun g hg => hsub g (by simp [hg])
  have gm : ∀ g ∈ graphemesList m, g ∈ t.graphemes := fun g hg => hsub g (by simp [hg])
  have gb : ∀ g ∈ graphemesList b, g ∈ t.graphemes := fun g hg => hsub g (by simp [hg])
  have hxm : ∀ x ∈ m, ¬ Blank x → toText x ≠ [] ∧ (∀ c ∈ (toText x).head?, ¬ WhiteSpace c) ∧ ∀ c ∈ (toText x).getLast?, ¬ WhiteSpace c := by
    intro x hx hnb
    refine item_ends hG hE (h2 x (by simp [hx])) (fun g hg => gm g ?_) hnb
    obtain ⟨m1, m2, rfl⟩ := List.append_of_mem hx
    rw [graphemesList_append, graphemesList]
    simp [hg]
  obtain ⟨a1, a2, a3⟩ := blank_items hG ha ga
  obtain ⟨b1, b2, b3⟩ := blank_items hG hb gb
  have htext : toText t = (graphemesList a).flatten ++ seqText m ++ (graphemesList b).flatten := by
    rw [← h4, seqText_append, seqText_append, a1, b1]
  have htrim : Trimmed (toText t) (seqText m) := by
    refine ⟨_, _, htext, ?_, ?_, ?_, ?_⟩
    · intro c hc
      obtain ⟨g, hg, hc⟩ := List.mem_flatten.1 hc
      exact a3 g hg c hc
    · intro c hc
      obtain ⟨g, hg, hc⟩ := List.mem_flatten.1 hc
      exact b3 g hg c hc
    · refine items_head fun x hx => ?_
      have := hxm x (List.mem_of_mem_head? hx) (hm1 x hx)
      exact ⟨this.1, this.2.1⟩
    · refine items_last fun x hx => ?_
      have := hxm x (List.mem_of_mem_getLast? hx) (hm2 x hx)
      exact ⟨this.1, this.2.2⟩
  refine ⟨graphemesList a, graphemesList b, seqText m, ?_, htext, htrim, ?_⟩
  · intro g hg
    rcases List.mem_append.1 hg with hg | hg
    · exact a3 g hg
    · exact b3 g hg
  have hden : t.denote = {graphemesList a} * denoteSeq m * {graphemesList b} := by
    rw [← h5, denoteSeq_append, denoteSeq_append, a2, b2]
  have hmem : ∀ w, Matches t w ↔ ∃ v, v ∈ denoteSeq m ∧ w = graphemesList a ++ v ++ graphemesList b := by
    intro w
    rw [matches_denote, hden, Language.mem_mul]
    constructor
    · rintro ⟨x, hx, y, rfl, rfl⟩
      obtain ⟨p, rfl, v, hv, rfl⟩ := Language.mem_mul.1 hx
      exact ⟨v, hv, rfl⟩
    · rintro ⟨v, hv, rfl⟩
      exact ⟨_, Language.mem_mul.2 ⟨_, rfl, v, hv, rfl⟩, _, rfl, rfl⟩
  cases hm : m with
  | nil =>
    left
    rw [hm] at htrim hmem
    refine ⟨by rw [seqText], ?_, fun w => ?_⟩
    · rw [seqText] at htrim
      cases hr : regex cl (toText t) with
      | none => rfl
      | some t' =>
        have := (regex_some htrim).1 hr
        have := expression_consumes h _ _ _ _ this
        simp at this
    · rw [hmem, denoteSeq]
      simp [Language.mem_one]
  | cons y ys =>
    right
    have hne : m ≠ [] := by rw [hm]; simp
    rw [← hm]
    have hpm : Proper (.seq m) := by
      rw [Proper]
      refine ⟨hne, ?_⟩
      rw [properList_append, properList_append] at h3
      exact h3.1.2
    have hP := (print_tree hG (.seq m) hpm (by rw [graphemes]; exact gm) [] (Or.inl rfl)).1
    rw [List.append_nil, toText, denote, graphemes] at hP
    obtain ⟨t', g1, g2, g3⟩ := expression_complete h (ExprL.one hP) (Nat.lt_succ_self _)
    refine ⟨?_, t', (regex_some htrim).2 g1, ?_, fun w => ?_⟩
    · have := hxm y (by rw [hm]; simp) (hm1 y (by rw [hm]; rfl))
      rw [hm, seqText]
      simp [this.1]
    · rw [← h6, graphemesList_append, graphemesList_append, g3]
    · rw [hmem]
      simp only [matches_denote, g2]

end Dandy
