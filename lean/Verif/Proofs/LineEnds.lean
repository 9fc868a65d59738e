import Verif.Spec.LineEnds
import Verif.Proofs.Site
/-!
# Line ends of tables: `\r\n` and `\n` mean the same

Helper lemmas for C102.
-/

namespace Dandy

open TableText Site

/-- Splitting a text at a place of the normalized text. -/
theorem Crlf.split {t u v : Str} (h : Crlf t (u ++ v)) : ∃ a b, t = a ++ b ∧ Crlf a u ∧ Crlf b v := by
  induction u generalizing t with
  | nil => exact ⟨[], t, rfl, .nil, h⟩
  | cons c u ih =>
    cases h with
    | same hc h =>
      obtain ⟨a, b, rfl, h1, h2⟩ := ih h
      exact ⟨c :: a, b, rfl, .same hc h1, h2⟩
    | crlf h =>
      obtain ⟨a, b, rfl, h1, h2⟩ := ih h
      exact ⟨'\r' :: '\n' :: a, b, rfl, .crlf h1, h2⟩

theorem Crlf.eq {t u : Str} (h : Crlf t u) (hu : '\n' ∉ u) : t = u := by
  induction h with
  | nil => rfl
  | same _ _ ih =>
    rw [List.mem_cons, not_or] at hu
    rw [ih hu.2]
  | crlf => simp at hu

theorem crlf_of_paired : ∀ {t : Str}, PairedCr t → Crlf t (Site.normalize t)
  | [], _ => .nil
  | c :: t, h => by
    by_cases hc : c = '\r'
    · subst hc
      obtain ⟨b, rfl⟩ := h [] t rfl
      rw [normalize.eq_2]
      exact .crlf (crlf_of_paired (fun a b' hb => h ('\r' :: '\n' :: a) b' (by rw [hb]; rfl)))
    · rw [normalize.eq_4 _ _ (fun _ e => absurd e hc) (fun e => absurd e hc)]
      exact .same hc (crlf_of_paired (fun a b' hb => h (c :: a) b' (by rw [hb]; rfl)))
  termination_by t => t.length

/-! ## Pieces of a line -/

theorem blanks_noBreak {t : Str} (h : Blanks t) : NoBreak t :=
  ⟨fun hc => by simpa using h _ hc, fun hc => by simpa using h _ hc⟩

theorem tail_noBreak {t : Str} (h : Tail t) : NoBreak t := by
  rcases h with h | ⟨b, c, rfl, hb, h1, h2⟩
  · exact blanks_noBreak h
  · exact NoBreak.append.2 ⟨blanks_noBreak hb, NoBreak.cons.2 ⟨⟨by decide, by decide⟩, h1, h2⟩⟩

theorem spaced_noBreak {α : Type} {Item : α → Str → Prop} (hI : ∀ a t, Item a t → NoBreak t) {as : List α} {t : Str}
    (h : Spaced Item as t) : NoBreak t := by
  induction h with
  | one h => exact hI _ _ h
  | cons h hb _ _ ih => exact NoBreak.append.2 ⟨NoBreak.append.2 ⟨hI _ _ h, blanks_noBreak hb⟩, ih⟩

theorem nameItem_noBreak (n t : Str) (h : NameItem n t) : NoBreak t := NoBreak.name h.2

theorem headItem_noBreak (n : NfaAlphabetEntry) (t : Str) (h : HeadItem n t) : NoBreak t := by
  cases n with
  | element e => exact nameItem_noBreak _ _ h
  | eps => rcases h with rfl | rfl <;> unfold NoBreak <;> decide

theorem setItem_noBreak (ns : List Str) (t : Str) (h : SetItem ns t) : NoBreak t := by
  obtain ⟨b, u, b', rfl, hb, hb', hu⟩ := h
  have hu' : NoBreak u := by
    rcases hu with ⟨_, rfl⟩ | hu
    · exact NoBreak.nil
    · exact spaced_noBreak nameItem_noBreak hu
  exact NoBreak.append.2 ⟨NoBreak.cons.2 ⟨⟨by decide, by decide⟩,
    NoBreak.append.2 ⟨NoBreak.append.2 ⟨blanks_noBreak hb, hu'⟩, blanks_noBreak hb'⟩⟩, by unfold NoBreak; decide⟩

theorem headLine_noBreak {α : Type} {Item : α → Str → Prop} (hI : ∀ a t, Item a t → NoBreak t) {as : List α} {t : Str}
    (h : HeadLine Item as t) : NoBreak t := by
  obtain ⟨b, u, l, rfl, hb, hu, hl⟩ := h
  exact NoBreak.append.2 ⟨NoBreak.append.2 ⟨blanks_noBreak hb, spaced_noBreak hI hu⟩, tail_noBreak hl⟩

theorem mark_noBreak {ws : List Str} (hw : ∀ w ∈ ws, NoBreak w) {flag : Bool} {t : Str} (h : Mark ws flag t) : NoBreak t := by
  rcases h with ⟨_, rfl⟩ | ⟨_, w, b, h1, rfl, hb, _⟩
  · exact NoBreak.nil
  · exact NoBreak.append.2 ⟨hw w h1, blanks_noBreak hb⟩

theorem rowLine_noBreak {τ : Type} {Entry : τ → Str → Prop} (hI : ∀ a t, Entry a t → NoBreak t) {i a : Bool} {n : Str} {es : List τ}
    {t : Str} (h : RowLine Entry i a n es t) : NoBreak t := by
  obtain ⟨b, i, a, n, b', u, l, rfl, hb, hi, ha, hn, hb', _, hu, hl⟩ := h
  have h1 : NoBreak i := mark_noBreak (by
    intro w hw
    rcases List.mem_cons.1 hw with rfl | hw
    · unfold NoBreak; decide
    · rw [List.mem_singleton.1 hw]; unfold NoBreak; decide) hi
  have h2 : NoBreak a := mark_noBreak (by
    intro w hw
    rw [List.mem_singleton.1 hw]; unfold NoBreak; decide) ha
  simp only [NoBreak.append]
  exact ⟨⟨⟨⟨⟨⟨blanks_noBreak hb, h1⟩, h2⟩, nameItem_noBreak _ _ hn⟩, blanks_noBreak hb'⟩, spaced_noBreak hI hu⟩, tail_noBreak hl⟩

/-! ## Texts -/

/-- A relation between texts which differ at most in the ends of lines. -/
structure SameLines (R : Str → Str → Prop) : Prop where
  nil : ∀ u, R [] u → u = []
  line : ∀ a b u, NoBreak a → R (a ++ b) u → ∃ u', u = a ++ u' ∧ R b u'
  eol : ∀ e b u, Eol e → R (e ++ b) u → ∃ e' u', u = e' ++ u' ∧ Eol e' ∧ R b u'

theorem SameLines.last {R : Str → Str → Prop} (hR : SameLines R) {a u : Str} (ha : NoBreak a) (h : R a u) : u = a := by
  obtain ⟨u', rfl, h'⟩ := hR.line a [] u ha (by rw [List.append_nil]; exact h)
  rw [hR.nil _ h', List.append_nil]

theorem SameLines.skip {R : Str → Str → Prop} (hR : SameLines R) {k : Str} (hk : Skip k) :
    ∀ b u, R (k ++ b) u → ∃ k' u', u = k' ++ u' ∧ Skip k' ∧ R b u' := by
  induction hk with
  | nil => exact fun b u h => ⟨[], u, rfl, .nil, h⟩
  | @cons l e k hl he _ ih =>
    intro b u h
    rw [List.append_assoc, List.append_assoc] at h
    obtain ⟨u1, rfl, g1⟩ := hR.line _ _ _ (tail_noBreak hl) h
    obtain ⟨e', u2, rfl, he', g2⟩ := hR.eol _ _ _ he g1
    obtain ⟨k', u3, rfl, hk', g3⟩ := ih _ _ g2
    exact ⟨l ++ e' ++ k', u3, by simp, .cons hl he' hk', g3⟩

theorem SameLines.rows {R : Str → Str → Prop} (hR : SameLines R) {σ : Type} {Row : σ → Str → Prop} (hI : ∀ a t, Row a t → NoBreak t)
    {ss : List σ} {r : Str} (hr : Rows Row ss r) : ∀ b u, R (r ++ b) u → ∃ r' u', u = r' ++ u' ∧ Rows Row ss r' ∧ R b u' := by
  induction hr with
  | @one a t h =>
    intro b u hu
    obtain ⟨u1, rfl, h1⟩ := hR.line _ _ _ (hI _ _ h) hu
    exact ⟨t, u1, rfl, .one h, h1⟩
  | @cons a as t e k r h he hk _ ih =>
    intro b u hu
    rw [List.append_assoc, List.append_assoc, List.append_assoc] at hu
    obtain ⟨u1, rfl, g4⟩ := hR.line _ _ _ (hI _ _ h) hu
    obtain ⟨e', u2, rfl, he', g5⟩ := hR.eol _ _ _ he g4
    obtain ⟨k', u3, rfl, hk', g6⟩ := hR.skip hk _ _ g5
    obtain ⟨r', u4, rfl, hr', g7⟩ := ih _ _ g6
    exact ⟨t ++ e' ++ k' ++ r', u4, by simp, .cons h he' hk' hr', g7⟩

theorem SameLines.text {R : Str → Str → Prop} (hR : SameLines R) {α σ : Type} {Item : α → Str → Prop} {Row : σ → Str → Prop}
    (hI : ∀ a t, Item a t → NoBreak t) (hJ : ∀ a t, Row a t → NoBreak t) {head : List α} {states : List σ} {t u : Str}
    (ht : Text Item Row head states t) (h : R t u) : Text Item Row head states u := by
  obtain ⟨k, l, e, k', r, z, rfl, hk, hl, he, hk', hr, hz⟩ := ht
  simp only [List.append_assoc] at h
  obtain ⟨k1, u1, rfl, hk1, g8⟩ := hR.skip hk _ _ h
  obtain ⟨u2, rfl, g9⟩ := hR.line _ _ _ (headLine_noBreak hI hl) g8
  obtain ⟨e1, u3, rfl, he1, g10⟩ := hR.eol _ _ _ he g9
  obtain ⟨k2, u4, rfl, hk2, g11⟩ := hR.skip hk' _ _ g10
  obtain ⟨r1, u5, rfl, hr1, g12⟩ := hR.rows hJ hr _ _ g11
  refine ⟨k1, l, e1, k2, r1, u5, by simp, hk1, hl, he1, hk2, hr1, ?_⟩
  rcases hz with rfl | ⟨e', k'', x, rfl, he', hk'', hx⟩
  · exact Or.inl (hR.nil _ g12)
  · rw [List.append_assoc] at g12
    obtain ⟨e2, u6, rfl, he2, g13⟩ := hR.eol _ _ _ he' g12
    obtain ⟨k3, u7, rfl, hk3, g14⟩ := hR.skip hk'' _ _ g13
    exact Or.inr ⟨e2, k3, x, by rw [hR.last (tail_noBreak hx) g14, List.append_assoc], he2, hk3, hx⟩

theorem sameLines_crlf : SameLines Crlf where
  nil u h := by cases h; rfl
  line a b u ha h := by
    induction a generalizing u with
    | nil => exact ⟨u, rfl, h⟩
    | cons c a ih =>
      rw [NoBreak.cons] at ha
      rw [List.cons_append] at h
      generalize hx : a ++ b = x at h
      cases h with
      | same _ h =>
        obtain ⟨u', e, h'⟩ := ih _ ha.2 (hx ▸ h)
        exact ⟨u', by rw [e, List.cons_append], h'⟩
      | crlf h => exact absurd rfl ha.1.2
  eol e b u he h := by
    rcases he with rfl | rfl
    · cases h with
      | same _ h => exact ⟨['\n'], _, rfl, Or.inl rfl, h⟩
    · cases h with
      | same hc _ => exact absurd rfl hc
      | crlf h => exact ⟨['\n'], _, rfl, Or.inl rfl, h⟩

theorem sameLines_flip : SameLines (fun u t => Crlf t u) where
  nil u h := by cases h; rfl
  line a b u ha h := by
    obtain ⟨x, y, rfl, h1, h2⟩ := Crlf.split h
    rw [h1.eq ha.1]
    exact ⟨y, rfl, h2⟩
  eol e b u he h := by
    obtain ⟨x, y, rfl, h1, h2⟩ := Crlf.split h
    refine ⟨x, y, rfl, ?_, h2⟩
    rcases he with rfl | rfl
    · cases h1 with
      | same _ h => cases h; exact Or.inl rfl
      | crlf h => cases h; exact Or.inr rfl
    · cases h1 with
      | same hc _ => exact absurd rfl hc

theorem dfaText_crlf {p : ParsedDfa} {t u : Str} (h : Crlf t u) : DfaText p u ↔ DfaText p t :=
  ⟨fun hx => sameLines_flip.text nameItem_noBreak (fun _ _ => rowLine_noBreak nameItem_noBreak) hx h,
    fun hx => sameLines_crlf.text nameItem_noBreak (fun _ _ => rowLine_noBreak nameItem_noBreak) hx h⟩

theorem nfaText_crlf {p : ParsedNfa} {t u : Str} (h : Crlf t u) : NfaText p u ↔ NfaText p t :=
  ⟨fun hx => sameLines_flip.text headItem_noBreak (fun _ _ => rowLine_noBreak setItem_noBreak) hx h,
    fun hx => sameLines_crlf.text headItem_noBreak (fun _ _ => rowLine_noBreak setItem_noBreak) hx h⟩

end Dandy
