import Verif.Proofs.RegexParser
/-! # Lemmas about printing regular expressions -/

namespace Dandy
open RegexParser P RegexTree

mutual
/-- Every sequence and alternation has a part. -/
def RegexTree.Proper : RegexTree → Prop
  | .seq ts => ts ≠ [] ∧ RegexTree.ProperList ts
  | .alt ts => ts ≠ [] ∧ RegexTree.ProperList ts
  | .rep t => RegexTree.Proper t
  | .chr _ => True
/-- See `Proper`. -/
def RegexTree.ProperList : List RegexTree → Prop
  | [] => True
  | t :: ts => RegexTree.Proper t ∧ RegexTree.ProperList ts
end

theorem properList_iff (ts : List RegexTree) : ProperList ts ↔ ∀ t ∈ ts, Proper t := by
  induction ts with
  | nil => simp [ProperList]
  | cons t ts ih => simp [ProperList, ih]

theorem proper_wrap_seq {ts : List RegexTree} (hne : ts ≠ []) (h : ∀ t ∈ ts, Proper t) : Proper (wrapMultiple .seq ts) := by
  match ts, hne with
  | [t], _ => exact h t List.mem_cons_self
  | t :: t' :: ts, _ =>
    have : wrapMultiple .seq (t :: t' :: ts) = .seq (t :: t' :: ts) := by unfold wrapMultiple; simp
    rw [this, Proper, properList_iff]
    exact ⟨by simp, h⟩

theorem proper_wrap_alt {ts : List RegexTree} (hne : ts ≠ []) (h : ∀ t ∈ ts, Proper t) : Proper (wrapMultiple .alt ts) := by
  match ts, hne with
  | [t], _ => exact h t List.mem_cons_self
  | t :: t' :: ts, _ =>
    have : wrapMultiple .alt (t :: t' :: ts) = .alt (t :: t' :: ts) := by unfold wrapMultiple; simp
    rw [this, Proper, properList_iff]
    exact ⟨by simp, h⟩

variable {cl : Str → Nat}

theorem chain_all {α : Type} {p : P α} {Q : α → Prop} (hp : ∀ s a r, p s = some (a, r) → Q a) {s r : Str} {as : List α}
    (h : Chain p s as r) : ∀ a ∈ as, Q a := by
  induction h with
  | nil => intro a ha; cases ha
  | cons h1 _ ih =>
    intro a ha
    rcases List.mem_cons.1 ha with rfl | ha
    · exact hp _ _ _ h1
    · exact ih a ha

theorem expression_proper (h : Segmentation cl) : ∀ (d : Nat) (s : Str) (t : RegexTree) (r : Str), expression cl d s = some (t, r) →
    Proper t
  | 0, _, _, _, hs => by cases hs
  | d + 1, s, t, r, hs => by
    have hce := expression_consumes h d
    have hitem : ∀ s t r, itemP cl (expression cl d) s = some (t, r) → Proper t := by
      intro s t r hs
      rw [itemP_eq] at hs
      obtain ⟨⟨t', o⟩, h1, rfl⟩ := map_some.1 hs
      obtain ⟨m, h2, _⟩ := pair_some.1 h1
      have ht : Proper t' := by
        rcases alt_some.1 h2 with h4 | ⟨_, h4⟩
        · obtain ⟨a, c, m1, m2, _, h6, _⟩ := delimited_some.1 h4
          exact expression_proper h d _ _ _ h6
        · obtain ⟨c, _, rfl⟩ := map_some.1 h4
          rw [Proper]; trivial
      cases o with
      | none => exact ht
      | some c =>
        unfold applyKleene
        split
        · rename_i heq
          cases heq
          split
          · rw [Proper, properList_iff]
            refine ⟨by simp, ?_⟩
            intro x hx
            simp only [List.mem_cons, List.not_mem_nil, or_false] at hx
            rcases hx with rfl | rfl
            · exact ht
            · rw [Proper]; exact ht
          · rw [Proper]; exact ht
        · rename_i heq; cases heq
    have hseq : ∀ s t r, sequence cl (expression cl d) s = some (t, r) → Proper t := by
      intro s t r hs
      obtain ⟨ts, h1, rfl⟩ := map_some.1 hs
      obtain ⟨hne, hc, _⟩ := (many1_iff (itemP_consumes h hce)).1 h1
      exact proper_wrap_seq hne (chain_all hitem hc)
    obtain ⟨ts, h1, rfl⟩ := map_some.1 hs
    obtain ⟨a, as, m, rfl, h2, h3, _⟩ := (separatedList1_iff (oneOf_consumes _) (sequence_consumes h hce).shrinks).1 h1
    refine proper_wrap_alt (by simp) ?_
    intro x hx
    rcases List.mem_cons.1 hx with rfl | hx
    · exact hseq _ _ _ h2
    · refine chain_all (Q := Proper) ?_ h3 x hx
      intro s a r hp
      obtain ⟨_, _, _, h5⟩ := preceded_some.1 hp
      exact hseq _ _ _ h5

/-- Texts that come after a printed grapheme. -/
def Bd (G : List Str) (r : Str) : Prop := r = [] ∨ (∃ c r', r = c :: r' ∧ IsReserved c) ∨ ∃ g ∈ G, g <+: r

/-- The graphemes in `G` are printed in such a way that they are read back. -/
structure Readable (cl : Str → Nat) (G : List Str) : Prop where
  shape : ∀ g ∈ G, (∃ c g', g = c :: g' ∧ ¬ IsReserved c) ∨ (∃ c, g = [c] ∧ IsReserved c ∧ c.toNat < 128)
  cluster : ∀ g ∈ G, ∀ r, Bd G r → cl (g ++ r) = g.length

theorem SeqL.append {s m r : Str} {L M : Language Str} {gs hs : List Str} (h : SeqL cl s m L gs) (h2 : SeqL cl m r M hs) :
    SeqL cl s r (L * M) (gs ++ hs) := by
  have key : ∀ s m L gs, SeqL cl s m L gs → ∀ r M hs, SeqL cl m r M hs → SeqL cl s r (L * M) (gs ++ hs) := by
    intro s m L gs h
    refine SeqL.rec (cl := cl) (motive_1 := fun _ _ _ _ _ => True) (motive_2 := fun _ _ _ _ _ => True)
      (motive_3 := fun s m L gs _ => ∀ r M hs, SeqL cl m r M hs → SeqL cl s r (L * M) (gs ++ hs)) (motive_4 := fun _ _ _ _ _ => True)
      ?_ ?_ ?_ ?_ ?_ ?_ ?_ ?_ ?_ ?_ ?_ ?_ h
    · intros; trivial
    · intros; trivial
    · intros; trivial
    · intros; trivial
    · intros; trivial
    · intros; trivial
    · intros; trivial
    · intros; trivial
    · intro s r L gs h1 _ r' M hs h2
      exact .cons h1 h2
    · intro s m r L M gs hs h1 _ _ ih r' M' ks h2
      rw [mul_assoc, List.append_assoc]
      exact .cons h1 (ih _ _ _ h2)
    · intros; trivial
    · intros; trivial
  exact key s m L gs h r M hs h2

theorem take_append_len {g r : Str} {k : Nat} (h : k = g.length) : (g ++ r).take k = g ∧ (g ++ r).drop k = r := by
  subst h; simp

theorem bd_of_reserved {G : List Str} {c : Char} {r : Str} (h : IsReserved c) : Bd G (c :: r) := Or.inr (Or.inl ⟨c, r, rfl, h⟩)

mutual

theorem print_tree {G : List Str} (hG : Readable cl G) : ∀ (t : RegexTree), Proper t → (∀ g ∈ t.graphemes, g ∈ G) → ∀ r, Bd G r →
    SeqL cl (toText t ++ r) r t.denote t.graphemes ∧ Bd G (toText t ++ r)
  | .seq ts, hp, hg, r, hr => by
    rw [Proper] at hp
    rw [toText, denote, graphemes]
    exact print_seq hG ts hp.1 hp.2 (by rw [graphemes] at hg; exact hg) r hr
  | .alt ts, hp, hg, r, hr => by
    rw [Proper] at hp
    rw [toText, denote, graphemes]
    have := print_alt hG ts hp.1 hp.2 (by rw [graphemes] at hg; exact hg) r
    simp only [List.cons_append, List.append_assoc, List.nil_append]
    refine ⟨.one (.atom (.par this)), bd_of_reserved (by unfold IsReserved; simp)⟩
  | .rep t, hp, hg, r, hr => by
    rw [Proper] at hp
    rw [toText, denote, graphemes]
    have := (print_tree hG t hp (by rw [graphemes] at hg; exact hg) (')' :: '*' :: r) (bd_of_reserved (by unfold IsReserved; simp))).1
    simp only [List.cons_append, List.append_assoc, List.nil_append]
    exact ⟨.one (.star (.par (.one this))), bd_of_reserved (by unfold IsReserved; simp)⟩
  | .chr .epsilon, _, _, r, _ => by
    rw [toText, denote, graphemes]
    exact ⟨.one (.atom .epsilon), bd_of_reserved (by unfold IsReserved; simp)⟩
  | .chr .empty, _, _, r, _ => by
    rw [toText, denote, graphemes]
    exact ⟨.one (.atom .empty), bd_of_reserved (by unfold IsReserved; simp)⟩
  | .chr (.grapheme g), _, hg, r, hr => by
    rw [toText, denote, graphemes]
    have hgG : g ∈ G := hg g (by rw [graphemes]; simp)
    have hcl := take_append_len (r := r) (hG.cluster g hgG r hr)
    rcases hG.shape g hgG with ⟨c, g', rfl, hc⟩ | ⟨c, rfl, hc, hlt⟩
    · have : graphemeText (c :: g') = c :: g' := by
        unfold graphemeText
        rw [if_neg]
        simp only [List.headD_cons, Bool.and_eq_true, not_and]
        intro _ hx
        exact hc ((reserved_iff c).1 hx)
      rw [this]
      refine ⟨?_, Or.inr (Or.inr ⟨_, hgG, List.prefix_append _ _⟩)⟩
      have h := SeqL.one (ItemL.atom (AtomL.plain (cl := cl) (s := g' ++ r) hc))
      rw [← List.cons_append, hcl.1, hcl.2] at h
      exact h
    · have : graphemeText [c] = ['\\', c] := by
        unfold IsReserved at hc
        rcases hc with rfl | rfl | rfl | rfl | rfl | rfl | rfl | rfl
        · exact absurd hlt (by decide)
        · exact absurd hlt (by decide)
        all_goals decide
      rw [this]
      refine ⟨?_, bd_of_reserved (by unfold IsReserved; simp)⟩
      have h := SeqL.one (ItemL.atom (AtomL.escaped (cl := cl) (s := [c] ++ r) (by simp)))
      rw [hcl.1, hcl.2] at h
      exact h

theorem print_seq {G : List Str} (hG : Readable cl G) : ∀ (ts : List RegexTree), ts ≠ [] → ProperList ts →
    (∀ g ∈ graphemesList ts, g ∈ G) → ∀ r, Bd G r → SeqL cl (seqText ts ++ r) r (denoteSeq ts) (graphemesList ts) ∧ Bd G (seqText ts ++ r)
  | [], h, _, _, _, _ => absurd rfl h
  | t :: ts, _, hp, hg, r, hr => by
    rw [ProperList] at hp
    rw [graphemesList] at hg
    have hg1 : ∀ g ∈ t.graphemes, g ∈ G := fun g h => hg g (List.mem_append_left _ h)
    have hg2 : ∀ g ∈ graphemesList ts, g ∈ G := fun g h => hg g (List.mem_append_right _ h)
    rw [seqText, List.append_assoc]
    cases ts with
    | nil =>
      rw [denoteSeq_single, graphemesList_single, seqText, List.nil_append]
      exact print_tree hG t hp.1 hg1 r hr
    | cons t' ts' =>
      have h2 := print_seq hG (t' :: ts') (by simp) hp.2 hg2 r hr
      have h1 := print_tree hG t hp.1 hg1 _ h2.2
      rw [denoteSeq, graphemesList]
      exact ⟨h1.1.append h2.1, h1.2⟩

theorem print_alt {G : List Str} (hG : Readable cl G) : ∀ (ts : List RegexTree), ts ≠ [] → ProperList ts →
    (∀ g ∈ graphemesList ts, g ∈ G) → ∀ r, ExprL cl (altText ts ++ ')' :: r) (')' :: r) (denoteAlt ts) (graphemesList ts)
  | [], h, _, _, _ => absurd rfl h
  | t :: ts, _, hp, hg, r => by
    rw [ProperList] at hp
    rw [graphemesList] at hg
    have hg1 : ∀ g ∈ t.graphemes, g ∈ G := fun g h => hg g (List.mem_append_left _ h)
    have hg2 : ∀ g ∈ graphemesList ts, g ∈ G := fun g h => hg g (List.mem_append_right _ h)
    rw [altText, List.append_assoc]
    cases ts with
    | nil =>
      rw [denoteAlt_single, graphemesList_single, altRest, List.nil_append]
      exact .one (print_tree hG t hp.1 hg1 _ (bd_of_reserved (by unfold IsReserved; simp))).1
    | cons t' ts' =>
      have h2 := print_alt hG (t' :: ts') (by simp) hp.2 hg2 r
      have e : altRest (t' :: ts') = '|' :: altText (t' :: ts') := by rw [altRest, altText]; rfl
      rw [e, denoteAlt, graphemesList]
      exact .alt (print_tree hG t hp.1 hg1 _ (bd_of_reserved (by unfold IsReserved; simp))).1 h2

end

end Dandy
