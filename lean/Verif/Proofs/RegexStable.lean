import Verif.Proofs.RegexStrip
/-! # Printing what was read from a printed text -/

namespace Dandy
open RegexParser P RegexTree

mutual
/-- Every sequence has a part, and every alternation two. -/
def RegexTree.Stable : RegexTree → Prop
  | .seq ts => ts ≠ [] ∧ RegexTree.StableList ts
  | .alt ts => 1 < ts.length ∧ RegexTree.StableList ts
  | .rep t => RegexTree.Stable t
  | .chr _ => True
/-- See `Stable`. -/
def RegexTree.StableList : List RegexTree → Prop
  | [] => True
  | t :: ts => RegexTree.Stable t ∧ RegexTree.StableList ts
end

theorem stableList_iff (ts : List RegexTree) : StableList ts ↔ ∀ t ∈ ts, Stable t := by
  induction ts with
  | nil => simp [StableList]
  | cons t ts ih => simp [StableList, ih]

theorem stable_wrap_seq {ts : List RegexTree} (hne : ts ≠ []) (h : ∀ t ∈ ts, Stable t) : Stable (wrapMultiple .seq ts) := by
  match ts, hne with
  | [t], _ => exact h t List.mem_cons_self
  | t :: t' :: ts, _ =>
    have : wrapMultiple .seq (t :: t' :: ts) = .seq (t :: t' :: ts) := by unfold wrapMultiple; simp
    rw [this, Stable, stableList_iff]
    exact ⟨by simp, h⟩

theorem stable_wrap_alt {ts : List RegexTree} (hne : ts ≠ []) (h : ∀ t ∈ ts, Stable t) : Stable (wrapMultiple .alt ts) := by
  match ts, hne with
  | [t], _ => exact h t List.mem_cons_self
  | t :: t' :: ts, _ =>
    have : wrapMultiple .alt (t :: t' :: ts) = .alt (t :: t' :: ts) := by unfold wrapMultiple; simp
    rw [this, Stable, stableList_iff]
    exact ⟨by simp, h⟩

variable {cl : Str → Nat}

theorem expression_stable (h : Segmentation cl) : ∀ (d : Nat) (s : Str) (t : RegexTree) (r : Str), expression cl d s = some (t, r) →
    Stable t
  | 0, _, _, _, hs => by cases hs
  | d + 1, s, t, r, hs => by
    have hce := expression_consumes h d
    have hitem : ∀ s t r, itemP cl (expression cl d) s = some (t, r) → Stable t := by
      intro s t r hs
      rw [itemP_eq] at hs
      obtain ⟨⟨t', o⟩, h1, rfl⟩ := map_some.1 hs
      obtain ⟨m, h2, _⟩ := pair_some.1 h1
      have ht : Stable t' := by
        rcases alt_some.1 h2 with h4 | ⟨_, h4⟩
        · obtain ⟨a, c, m1, m2, _, h6, _⟩ := delimited_some.1 h4
          exact expression_stable h d _ _ _ h6
        · obtain ⟨c, _, rfl⟩ := map_some.1 h4
          rw [Stable]; trivial
      cases o with
      | none => exact ht
      | some c =>
        unfold applyKleene
        split
        · rename_i heq
          cases heq
          split
          · rw [Stable, stableList_iff]
            refine ⟨by simp, ?_⟩
            intro x hx
            simp only [List.mem_cons, List.not_mem_nil, or_false] at hx
            rcases hx with rfl | rfl
            · exact ht
            · rw [Stable]; exact ht
          · rw [Stable]; exact ht
        · rename_i heq; cases heq
    have hseq : ∀ s t r, sequence cl (expression cl d) s = some (t, r) → Stable t := by
      intro s t r hs
      obtain ⟨ts, h1, rfl⟩ := map_some.1 hs
      obtain ⟨hne, hc, _⟩ := (many1_iff (itemP_consumes h hce)).1 h1
      exact stable_wrap_seq hne (chain_all hitem hc)
    obtain ⟨ts, h1, rfl⟩ := map_some.1 hs
    obtain ⟨a, as, m, rfl, h2, h3, _⟩ := (separatedList1_iff (oneOf_consumes _) (sequence_consumes h hce).shrinks).1 h1
    refine stable_wrap_alt (by simp) ?_
    intro x hx
    rcases List.mem_cons.1 hx with rfl | hx
    · exact hseq _ _ _ h2
    · refine chain_all (Q := Stable) ?_ h3 x hx
      intro s a r hp
      obtain ⟨_, _, _, h5⟩ := preceded_some.1 hp
      exact hseq _ _ _ h5

theorem toText_wrap_seq {ts : List RegexTree} (hne : ts ≠ []) : toText (wrapMultiple .seq ts) = seqText ts := by
  match ts, hne with
  | [t], _ => rw [seqText, seqText, List.append_nil]; rfl
  | t :: t' :: ts, _ =>
    have : wrapMultiple .seq (t :: t' :: ts) = .seq (t :: t' :: ts) := by unfold wrapMultiple; simp
    rw [this, toText]

theorem chain_append' {α : Type} {p : P α} {s m r : Str} {as bs : List α} (h : Chain p s as m) (h' : Chain p m bs r) :
    Chain p s (as ++ bs) r := by
  induction h with
  | nil s => exact h'
  | cons h1 _ ih => exact .cons h1 (ih h')

/-- A text that can follow an item. -/
def Next (G : List Str) (r : Str) : Prop := Bd G r ∧ ∀ c ∈ r.head?, c ∉ ['+', '*']

theorem next_reserved {G : List Str} {c : Char} {r : Str} (h : IsReserved c) (h1 : c ≠ '+') (h2 : c ≠ '*') : Next G (c :: r) :=
  ⟨bd_of_reserved h, fun d hd => by cases hd; simp [h1, h2]⟩

/-- The sequence that is read from a printed text. -/
theorem sequence_items (h : Segmentation cl) {d : Nat} {s r : Str} {ts : List RegexTree} (hne : ts ≠ [])
    (hc : Chain (itemP cl (expression cl d)) s ts r) (hf : Follows r) :
    sequence cl (expression cl d) s = some (wrapMultiple .seq ts, r) :=
  map_some.2 ⟨ts, (many1_iff (itemP_consumes h (expression_consumes h d))).2 ⟨hne, hc, itemP_follow hf h _⟩, rfl⟩

mutual

theorem stable_tree (h : Segmentation cl) {G : List Str} (hG : Readable cl G) : ∀ (t : RegexTree), Stable t → (∀ g ∈ t.graphemes, g ∈ G) → ∀ r, Next G r →
    Next G (toText t ++ r) ∧ ∀ d, (toText t ++ r).length ≤ d →
      ∃ ts, ts ≠ [] ∧ Chain (itemP cl (expression cl d)) (toText t ++ r) ts r ∧ seqText ts = toText t
  | .seq ts, hp, hg, r, hr => by
    rw [Stable] at hp
    rw [toText]
    exact stable_seq h hG ts hp.1 hp.2 (by rw [graphemes] at hg; exact hg) r hr
  | .alt ts, hp, hg, r, hr => by
    rw [Stable] at hp
    rw [toText]
    refine ⟨next_reserved (by unfold IsReserved; simp) (by decide) (by decide), fun d hd => ?_⟩
    simp only [List.cons_append, List.append_assoc, List.nil_append, List.length_cons] at hd ⊢
    obtain ⟨d, rfl⟩ : ∃ d', d = d' + 1 := ⟨d - 1, by omega⟩
    obtain ⟨u, us, m, h4, h5, h6, h7⟩ := stable_alt h hG ts (by intro h0; rw [h0] at hp; simp at hp) hp.2 (by rw [graphemes] at hg; exact hg) r d (by omega)
    have h8 : expression cl (d + 1) (altText ts ++ ')' :: r) = some (wrapMultiple .alt (u :: us), ')' :: r) := by
      refine map_some.2 ⟨u :: us, (separatedList1_iff (oneOf_consumes _) (sequence_consumes h (expression_consumes h d)).shrinks).2
        ⟨u, us, m, rfl, h4, h5, preceded_none.2 (Or.inl (oneOf_none.2 ?_))⟩, rfl⟩
      intro c hc; cases hc; decide
    have h9 : wrapMultiple .alt (u :: us) = .alt (u :: us) := by unfold wrapMultiple; rw [if_pos (by rw [h7]; exact hp.1)]
    rw [h9] at h8
    refine ⟨[.alt (u :: us)], by simp, .cons (item_complete (alt_some.2 (Or.inl (delimited_some.2 ⟨'(', ')', _, ')' :: r, oneOf_some.2 ⟨by decide, rfl⟩, h8,
      oneOf_some.2 ⟨by decide, rfl⟩⟩))) hr.2) (.nil r), ?_⟩
    rw [seqText, seqText, toText, h6]
    simp
  | .rep t, hp, hg, r, hr => by
    rw [Stable] at hp
    rw [toText]
    refine ⟨next_reserved (by unfold IsReserved; simp) (by decide) (by decide), fun d hd => ?_⟩
    simp only [List.cons_append, List.append_assoc, List.nil_append, List.length_cons] at hd ⊢
    obtain ⟨d, rfl⟩ : ∃ d', d = d' + 1 := ⟨d - 1, by omega⟩
    obtain ⟨_, h1⟩ := stable_tree h hG t hp (by rw [graphemes] at hg; exact hg) (')' :: '*' :: r) (next_reserved (by unfold IsReserved; simp) (by decide) (by decide))
    obtain ⟨ts, h2, h3, h4⟩ := h1 d (by omega)
    have h5 := sequence_items h h2 h3 (fun c hc => by cases hc; exact Or.inl rfl)
    have h8 : expression cl (d + 1) (toText t ++ ')' :: '*' :: r) = some (wrapMultiple .seq ts, ')' :: '*' :: r) := by
      refine map_some.2 ⟨[wrapMultiple .seq ts], (separatedList1_iff (oneOf_consumes _) (sequence_consumes h (expression_consumes h d)).shrinks).2
        ⟨_, [], _, rfl, h5, .nil _, preceded_none.2 (Or.inl (oneOf_none.2 ?_))⟩, rfl⟩
      intro c hc; cases hc; decide
    refine ⟨[.rep (wrapMultiple .seq ts)], by simp, .cons (item_complete_star (alt_some.2 (Or.inl (delimited_some.2 ⟨'(', ')', _, _, oneOf_some.2 ⟨by decide, rfl⟩, h8,
      oneOf_some.2 ⟨by decide, rfl⟩⟩)))) (.nil r), ?_⟩
    rw [seqText, seqText, toText, toText_wrap_seq h2, h4]
    simp
  | .chr .epsilon, _, _, r, hr => by
    rw [toText]
    refine ⟨next_reserved (by unfold IsReserved; simp) (by decide) (by decide), fun d _ => ⟨[.chr .epsilon], by simp,
      .cons (item_complete (atom_of_char (by decide) (regexChar_eps r)) hr.2) (.nil r), by rw [seqText, seqText, toText]; rfl⟩⟩
  | .chr .empty, _, _, r, hr => by
    rw [toText]
    refine ⟨next_reserved (by unfold IsReserved; simp) (by decide) (by decide), fun d _ => ⟨[.chr .empty], by simp,
      .cons (item_complete (atom_of_char (by decide) (regexChar_empty r)) hr.2) (.nil r), by rw [seqText, seqText, toText]; rfl⟩⟩
  | .chr (.grapheme g), _, hg, r, hr => by
    rw [toText]
    have hgG : g ∈ G := hg g (by rw [graphemes]; simp)
    have hcl := take_append_len (r := r) (hG.cluster g hgG r hr.1)
    rcases hG.shape g hgG with ⟨c, g', rfl, hc⟩ | ⟨c, rfl, hc, hlt⟩
    · have e : graphemeText (c :: g') = c :: g' := by
        unfold graphemeText
        rw [if_neg]
        simp only [List.headD_cons, Bool.and_eq_true, not_and]
        intro _ hx
        exact hc ((reserved_iff c).1 hx)
      have hcr : ∀ x, IsReserved x → c ≠ x := fun x hx he => hc (he ▸ hx)
      rw [e]
      refine ⟨⟨Or.inr (Or.inr ⟨_, hgG, List.prefix_append _ _⟩), ?_⟩, fun d _ => ⟨[.chr (.grapheme (c :: g'))], by simp, ?_,
        by rw [seqText, seqText, toText, e]; simp⟩⟩
      · intro x hx
        cases hx
        have a := hcr '+' (by unfold IsReserved; simp)
        have b := hcr '*' (by unfold IsReserved; simp)
        simp [a, b]
      · have h1 := regexChar_plain h (s := g' ++ r) hc
        rw [← List.cons_append, hcl.1, hcl.2] at h1
        exact .cons (item_complete (atom_of_char (hcr _ (by unfold IsReserved; simp)) h1) hr.2) (.nil r)
    · have e : graphemeText [c] = ['\\', c] := by
        unfold IsReserved at hc
        rcases hc with rfl | rfl | rfl | rfl | rfl | rfl | rfl | rfl
        · exact absurd hlt (by decide)
        · exact absurd hlt (by decide)
        all_goals decide
      rw [e]
      refine ⟨next_reserved (by unfold IsReserved; simp) (by decide) (by decide), fun d _ => ⟨[.chr (.grapheme [c])], by simp, ?_,
        by rw [seqText, seqText, toText, e]; simp⟩⟩
      have h1 := regexChar_esc (cl := cl) (s := [c] ++ r) (by simp)
      rw [hcl.1, hcl.2] at h1
      exact .cons (item_complete (atom_of_char (by decide) h1) hr.2) (.nil r)

theorem stable_seq (h : Segmentation cl) {G : List Str} (hG : Readable cl G) : ∀ (ts : List RegexTree), ts ≠ [] → StableList ts →
    (∀ g ∈ graphemesList ts, g ∈ G) → ∀ r, Next G r → Next G (seqText ts ++ r) ∧ ∀ d, (seqText ts ++ r).length ≤ d →
      ∃ us, us ≠ [] ∧ Chain (itemP cl (expression cl d)) (seqText ts ++ r) us r ∧ seqText us = seqText ts
  | [], h, _, _, _, _ => absurd rfl h
  | t :: ts, _, hp, hg, r, hr => by
    rw [StableList] at hp
    rw [graphemesList] at hg
    have hg1 : ∀ g ∈ t.graphemes, g ∈ G := fun g h => hg g (List.mem_append_left _ h)
    have hg2 : ∀ g ∈ graphemesList ts, g ∈ G := fun g h => hg g (List.mem_append_right _ h)
    rw [seqText, List.append_assoc]
    cases ts with
    | nil =>
      rw [seqText, List.nil_append, List.append_nil]
      exact stable_tree h hG t hp.1 hg1 r hr
    | cons t' ts' =>
      obtain ⟨h2, h3⟩ := stable_seq h hG (t' :: ts') (by simp) hp.2 hg2 r hr
      obtain ⟨h4, h5⟩ := stable_tree h hG t hp.1 hg1 _ h2
      refine ⟨h4, fun d hd => ?_⟩
      obtain ⟨us, u1, u2, u3⟩ := h5 d hd
      obtain ⟨vs, v1, v2, v3⟩ := h3 d (by simp only [List.length_append] at hd ⊢; omega)
      exact ⟨us ++ vs, by simp [u1], chain_append' u2 v2, by rw [seqText_append, u3, v3]⟩

theorem stable_alt (h : Segmentation cl) {G : List Str} (hG : Readable cl G) : ∀ (ts : List RegexTree), ts ≠ [] → StableList ts →
    (∀ g ∈ graphemesList ts, g ∈ G) → ∀ r d, (altText ts ++ ')' :: r).length ≤ d → ∃ u us m,
      sequence cl (expression cl d) (altText ts ++ ')' :: r) = some (u, m) ∧
      Chain (preceded (oneOf ['|']) (sequence cl (expression cl d))) m us (')' :: r) ∧ altText (u :: us) = altText ts ∧ (u :: us).length = ts.length
  | [], h, _, _, _, _, _ => absurd rfl h
  | t :: ts, _, hp, hg, r, d, hd => by
    rw [StableList] at hp
    rw [graphemesList] at hg
    have hg1 : ∀ g ∈ t.graphemes, g ∈ G := fun g h => hg g (List.mem_append_left _ h)
    have hg2 : ∀ g ∈ graphemesList ts, g ∈ G := fun g h => hg g (List.mem_append_right _ h)
    rw [altText, List.append_assoc] at hd ⊢
    cases ts with
    | nil =>
      rw [altRest, List.nil_append] at hd
      rw [altRest, List.nil_append]
      obtain ⟨_, h1⟩ := stable_tree h hG t hp.1 hg1 (')' :: r) (next_reserved (by unfold IsReserved; simp) (by decide) (by decide))
      obtain ⟨us, u1, u2, u3⟩ := h1 d hd
      exact ⟨_, [], _, sequence_items h u1 u2 (fun c hc => by cases hc; exact Or.inl rfl), .nil _, by rw [altText, altRest, toText_wrap_seq u1, u3], rfl⟩
    | cons t' ts' =>
      have e : altRest (t' :: ts') = '|' :: altText (t' :: ts') := by rw [altRest, altText]; rfl
      rw [e] at hd ⊢
      rw [List.cons_append] at hd ⊢
      obtain ⟨_, h1⟩ := stable_tree h hG t hp.1 hg1 ('|' :: (altText (t' :: ts') ++ ')' :: r)) (next_reserved (by unfold IsReserved; simp) (by decide) (by decide))
      obtain ⟨us, u1, u2, u3⟩ := h1 d hd
      obtain ⟨v, vs, m, v1, v2, v3, v4⟩ := stable_alt h hG (t' :: ts') (by simp) hp.2 hg2 r d (by
        simp only [List.length_append, List.length_cons] at hd ⊢; omega)
      refine ⟨_, v :: vs, _, sequence_items h u1 u2 (fun c hc => by cases hc; exact Or.inr rfl),
        .cons (preceded_some.2 ⟨'|', _, oneOf_some.2 ⟨by decide, rfl⟩, v1⟩) v2, ?_, by simpa using v4⟩
      have e' : altRest (v :: vs) = '|' :: altText (v :: vs) := by rw [altRest, altText]; rfl
      rw [altText, e', toText_wrap_seq u1, u3, v3]

end

mutual
/-- See `exists_items`. -/
theorem stable_items : ∀ t : RegexTree, Stable t → ∃ xs : List RegexTree, (∀ x ∈ xs, NotSeq x ∧ Stable x) ∧
    seqText xs = toText t ∧ graphemesList xs = t.graphemes
  | .seq ts, h => by
    rw [Stable] at h
    obtain ⟨xs, h1, h2, h3⟩ := stable_items_list ts h.2
    exact ⟨xs, h1, by rw [toText, h2], by rw [graphemes, h3]⟩
  | .alt ts, h => ⟨[.alt ts], by simpa [NotSeq] using h, by simp [seqText], graphemesList_single _⟩
  | .rep t, h => ⟨[.rep t], by simpa [NotSeq] using h, by simp [seqText], graphemesList_single _⟩
  | .chr c, h => ⟨[.chr c], by simpa [NotSeq] using h, by simp [seqText], graphemesList_single _⟩

theorem stable_items_list : ∀ ts : List RegexTree, StableList ts → ∃ xs : List RegexTree, (∀ x ∈ xs, NotSeq x ∧ Stable x) ∧
    seqText xs = seqText ts ∧ graphemesList xs = graphemesList ts
  | [], _ => ⟨[], by simp, rfl, rfl⟩
  | t :: ts, h => by
    rw [StableList] at h
    obtain ⟨xs, h1, h2, h3⟩ := stable_items t h.1
    obtain ⟨ys, g1, g2, g3⟩ := stable_items_list ts h.2
    refine ⟨xs ++ ys, ?_, by rw [seqText_append, h2, g2, seqText], by rw [graphemesList_append, h3, g3, graphemesList]⟩
    intro x hx
    rcases List.mem_append.1 hx with hx | hx
    · exact h1 x hx
    · exact g1 x hx
end

/-- The expression read from a text printed for a sequence. -/
theorem regex_stable_seq (h : Segmentation cl) {text : Str} {m : List RegexTree} {G : List Str} (hne : m ≠ []) (hp : StableList m) (hG : Readable cl G)
    (hg : ∀ g ∈ graphemesList m, g ∈ G) (hws : Trimmed text (seqText m)) : ∃ t', regex cl text = some t' ∧ toText t' = seqText m := by
  obtain ⟨_, h1⟩ := stable_seq h hG m hne hp hg [] ⟨Or.inl rfl, by simp⟩
  rw [List.append_nil] at h1
  obtain ⟨ts, h2, h3, h4⟩ := h1 _ (Nat.le_refl _)
  have h5 := sequence_items h h2 h3 (fun c hc => by cases hc)
  refine ⟨_, (regex_some hws).2 (map_some.2 ⟨[wrapMultiple .seq ts],
    (separatedList1_iff (oneOf_consumes _) (sequence_consumes h (expression_consumes h _)).shrinks).2
        ⟨_, [], _, rfl, h5, .nil _, preceded_none.2 (Or.inl (oneOf_none.2 (by intro c hc; cases hc)))⟩, rfl⟩), ?_⟩
  change toText (wrapMultiple .seq ts) = _
  rw [toText_wrap_seq h2, h4]

/-- What is read from a printed text is printed in the same way, but for white space at the ends. -/
theorem regex_stable (h : Segmentation cl) {t : RegexTree} (hp : Stable t) (hG : Readable cl t.graphemes) (hE : CleanEnds t.graphemes) :
    (∀ c ∈ toText t, WhiteSpace c) ∧ regex cl (toText t) = none ∨ ∃ t', regex cl (toText t) = some t' ∧ Trimmed (toText t) (toText t') := by
  obtain ⟨xs, h1, h2, h3⟩ := stable_items t hp
  obtain ⟨a, m, b, rfl, ha, hb, hm1, hm2⟩ := strip_ends Blank xs
  have hsub : ∀ g ∈ graphemesList (a ++ m ++ b), g ∈ t.graphemes := fun g hg => h3 ▸ hg
  rw [graphemesList_append, graphemesList_append] at hsub
  have ga : ∀ g ∈ graphemesList a, g ∈ t.graphemes := fun g hg => hsub g (by simp [hg])
  have gm : ∀ g ∈ graphemesList m, g ∈ t.graphemes := fun g hg => hsub g (by simp [hg])
  have gb : ∀ g ∈ graphemesList b, g ∈ t.graphemes := fun g hg => hsub g (by simp [hg])
  have hxm : ∀ x ∈ m, ¬ Blank x → toText x ≠ [] ∧ (∀ c ∈ (toText x).head?, ¬ WhiteSpace c) ∧ ∀ c ∈ (toText x).getLast?, ¬ WhiteSpace c := by
    intro x hx hnb
    refine item_ends hG hE (h1 x (by simp [hx])).1 (fun g hg => gm g ?_) hnb
    obtain ⟨m1, m2, rfl⟩ := List.append_of_mem hx
    rw [graphemesList_append, graphemesList]
    simp [hg]
  obtain ⟨a1, _, a3⟩ := blank_items hG ha ga
  obtain ⟨b1, _, b3⟩ := blank_items hG hb gb
  have htext : toText t = (graphemesList a).flatten ++ seqText m ++ (graphemesList b).flatten := by
    rw [← h2, seqText_append, seqText_append, a1, b1]
  have hwa : ∀ c ∈ (graphemesList a).flatten, WhiteSpace c := by
    intro c hc
    obtain ⟨g, hg, hc⟩ := List.mem_flatten.1 hc
    exact a3 g hg c hc
  have hwb : ∀ c ∈ (graphemesList b).flatten, WhiteSpace c := by
    intro c hc
    obtain ⟨g, hg, hc⟩ := List.mem_flatten.1 hc
    exact b3 g hg c hc
  have htrim : Trimmed (toText t) (seqText m) := by
    refine ⟨_, _, htext, hwa, hwb, ?_, ?_⟩
    · refine items_head fun x hx => ?_
      have := hxm x (List.mem_of_mem_head? hx) (hm1 x hx)
      exact ⟨this.1, this.2.1⟩
    · refine items_last fun x hx => ?_
      have := hxm x (List.mem_of_mem_getLast? hx) (hm2 x hx)
      exact ⟨this.1, this.2.2⟩
  by_cases hne : m = []
  · subst hne
    left
    rw [seqText] at htrim htext
    refine ⟨?_, ?_⟩
    · rw [htext]
      intro c hc
      rcases List.mem_append.1 hc with hc | hc
      · exact hwa c (by simpa using hc)
      · exact hwb c hc
    · cases hr : regex cl (toText t) with
      | none => rfl
      | some t' =>
        have := expression_consumes h _ _ _ _ ((regex_some htrim).1 hr)
        simp at this
  · right
    obtain ⟨t', h4, h5⟩ := regex_stable_seq h hne ((stableList_iff m).2 fun x hx => (h1 x (by simp [hx])).2) hG gm htrim
    exact ⟨t', h4, h5 ▸ htrim⟩

end Dandy
