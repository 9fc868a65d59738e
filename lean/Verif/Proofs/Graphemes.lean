import Verif.Spec.Graphemes
import Verif.Proofs.RegexPrint
import Verif.Proofs.Regex
/-! # Helper lemmas about grapheme clusters -/

namespace Dandy
open RegexTree RegexParser P

theorem Clusters.length_one {seg : Str → List Str} (hs : Clusters seg) (e : Str) : (seg e).length = 1 ↔ seg e = [e] := by
  constructor
  · intro h
    obtain ⟨x, hx⟩ := List.length_eq_one_iff.1 h
    have := hs.flatten e
    rw [hx] at this
    simp only [List.flatten_cons, List.flatten_nil, List.append_nil] at this
    rw [hx, this]
  · intro h
    rw [h]; rfl

/-- All graphemes of the trees a parser returns satisfy `Q`. -/
def AllG (Q : Str → Prop) (p : P RegexTree) : Prop := ∀ s t r, p s = some (t, r) → ∀ g ∈ t.graphemes, Q g

theorem allG_kleene {Q : Str → Prop} {t : RegexTree} (h : ∀ g ∈ t.graphemes, Q g) (o : Option Char) :
    ∀ g ∈ (applyKleene (t, o)).graphemes, Q g := by
  cases o with
  | none => exact h
  | some c =>
    by_cases hc : (c == '+') = true
    · have he : applyKleene (t, some c) = .seq [t, .rep t] := by simp only [applyKleene, hc, if_true]
      rw [he]
      intro g hg
      simp only [graphemes, graphemesList, List.append_nil, List.mem_append, or_self] at hg
      exact h g hg
    · have he : applyKleene (t, some c) = .rep t := by simp only [applyKleene, hc]; rfl
      rw [he]
      intro g hg
      simp only [graphemes] at hg
      exact h g hg

theorem allG_list {Q : Str → Prop} {ts : List RegexTree} (h : ∀ t ∈ ts, ∀ g ∈ t.graphemes, Q g) : ∀ g ∈ graphemesList ts, Q g := by
  induction ts with
  | nil => simp [graphemesList]
  | cons t ts ih =>
    intro g hg
    rw [graphemesList, List.mem_append] at hg
    rcases hg with hg | hg
    · exact h t (by simp) g hg
    · exact ih (fun t' ht' => h t' (by simp [ht'])) g hg

theorem allG_wrap {Q : Str → Prop} {f : List RegexTree → RegexTree} (hf : ∀ ts, (f ts).graphemes = graphemesList ts) {ts : List RegexTree}
    (h : ∀ t ∈ ts, ∀ g ∈ t.graphemes, Q g) : ∀ g ∈ (wrapMultiple f ts).graphemes, Q g := by
  unfold wrapMultiple
  split
  · rw [hf]; exact allG_list h
  · cases ts with
    | nil => intro g hg; simp [graphemes, graphemesList] at hg
    | cons t ts => exact h t (by simp)

theorem regexChar_good {cl : Str → Nat} {Q : Str → Prop} (hQ : ∀ s, s ≠ [] → Q (s.take (cl s))) {s r : Str} {g : Str}
    (h : regexChar cl s = some (.grapheme g, r)) : Q g := by
  have one : ∀ {s r : Str} {c : RegexChar}, oneCluster cl s = some (c, r) → c = .grapheme g → Q g := by
    intro s r c h hc
    cases s with
    | nil => cases h
    | cons a s =>
      simp only [oneCluster, Option.some.injEq, Prod.mk.injEq] at h
      obtain ⟨h1, _⟩ := h
      rw [← h1] at hc
      cases hc
      exact hQ _ (by simp)
  unfold regexChar at h
  rcases alt_some.1 h with h | ⟨_, h⟩
  · obtain ⟨_, _, h⟩ := value_some.1 h; cases h
  · rcases alt_some.1 h with h | ⟨_, h⟩
    · obtain ⟨_, _, h⟩ := value_some.1 h; cases h
    · rcases alt_some.1 h with h | ⟨_, h⟩
      · obtain ⟨_, _, _, h⟩ := preceded_some.1 h
        exact one h rfl
      · exact one (verify_some.1 h).1 rfl

theorem expression_allG {cl : Str → Nat} (hcl : Segmentation cl) {Q : Str → Prop} (hQ : ∀ s, s ≠ [] → Q (s.take (cl s))) :
    ∀ d, AllG Q (expression cl d)
  | 0 => by intro s t r h; cases h
  | d + 1 => by
    have ih := expression_allG hcl hQ d
    have hce := expression_consumes hcl d
    have item : ∀ s t r, alt (parExpr (expression cl d)) (combinatedChar cl) s = some (t, r) → ∀ g ∈ t.graphemes, Q g := by
      intro s t r h
      rcases alt_some.1 h with h | ⟨_, h⟩
      · obtain ⟨⟨t', o⟩, h1, rfl⟩ := map_some.1 h
        obtain ⟨m, h2, _⟩ := pair_some.1 h1
        obtain ⟨_, _, m1, m2, _, h3, _⟩ := delimited_some.1 h2
        exact allG_kleene (ih _ _ _ h3) o
      · obtain ⟨⟨t', o⟩, h1, rfl⟩ := map_some.1 h
        obtain ⟨m, h2, _⟩ := pair_some.1 h1
        obtain ⟨c, h3, rfl⟩ := map_some.1 h2
        refine allG_kleene ?_ o
        cases c with
        | grapheme g =>
          intro g' hg'
          simp only [graphemes, List.mem_singleton] at hg'
          rw [hg']
          exact regexChar_good hQ h3
        | epsilon => intro g' hg'; simp [graphemes] at hg'
        | empty => intro g' hg'; simp [graphemes] at hg'
    have seqG : ∀ s t r, sequence cl (expression cl d) s = some (t, r) → ∀ g ∈ t.graphemes, Q g := by
      intro s t r h
      obtain ⟨ts, h1, rfl⟩ := map_some.1 h
      obtain ⟨_, hc, _⟩ := (many1_iff (itemP_consumes hcl hce)).1 h1
      exact allG_wrap (fun ts => by rw [graphemes]) (chain_all (Q := fun t => ∀ g ∈ t.graphemes, Q g) item hc)
    intro s t r h
    obtain ⟨ts, h1, rfl⟩ := map_some.1 h
    obtain ⟨a, as, m, rfl, h2, h3, _⟩ := (separatedList1_iff (oneOf_consumes _) (sequence_consumes hcl hce).shrinks).1 h1
    refine allG_wrap (fun ts => by rw [graphemes]) ?_
    intro t ht
    rcases List.mem_cons.1 ht with rfl | ht
    · exact seqG _ _ _ h2
    · refine chain_all (Q := fun t => ∀ g ∈ t.graphemes, Q g) ?_ h3 t ht
      intro s t r h
      obtain ⟨_, _, _, h⟩ := preceded_some.1 h
      exact seqG _ _ _ h

/-- The length of the first cluster of a text. -/
def firstLen (seg : Str → List Str) (t : Str) : Nat := ((seg t).headD []).length

theorem Clusters.firstLen {seg : Str → List Str} (hs : Clusters seg) : Segmentation (firstLen seg) ∧ FirstCluster (firstLen seg) seg := by
  have key : ∀ t, t ≠ [] → ∃ g gs, seg t = g :: gs ∧ g ≠ [] ∧ t = g ++ gs.flatten := by
    intro t hne
    cases h : seg t with
    | nil => have := hs.flatten t; rw [h] at this; exact absurd this.symm hne
    | cons g gs =>
      refine ⟨g, gs, rfl, ?_, ?_⟩
      · rintro rfl; exact hs.nonempty t (by rw [h]; simp)
      · have := hs.flatten t; rw [h] at this; exact this.symm
  refine ⟨⟨?_, ?_⟩, ?_⟩
  · intro t hne
    obtain ⟨g, gs, h, hg, _⟩ := key t hne
    unfold Dandy.firstLen
    rw [h]
    exact List.length_pos_iff.2 hg
  · intro t
    by_cases hne : t = []
    · subst hne
      have := hs.flatten []
      unfold Dandy.firstLen
      cases h : seg [] with
      | nil => simp
      | cons g gs => rw [h] at this; simp only [List.flatten_cons, List.append_eq_nil_iff] at this; simp [this.1]
    · obtain ⟨g, gs, h, _, e⟩ := key t hne
      unfold Dandy.firstLen
      rw [h, e]
      simp
  · intro t hne
    obtain ⟨g, gs, h, _, e⟩ := key t hne
    unfold Dandy.firstLen
    rw [h]
    simp only [List.head?_cons, List.headD_cons, Option.some.injEq]
    rw [e, List.take_left]

end Dandy
