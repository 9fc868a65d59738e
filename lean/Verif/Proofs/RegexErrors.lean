import Verif.Proofs.ParseErrors
/-! # The errors of the parser of regular expressions -/

namespace Dandy

/-! ## What an expression leaves -/

section rest
open P RegexParser
variable {cl : Str → Nat}

/-- The rest is an end of the text. -/
theorem expr_suffix {s r : Str} {L : Language Str} {gs : List Str} (hl : ExprL cl s r L gs) : r <:+ s := by
  refine ExprL.rec
    (motive_1 := fun s r _ _ _ => r <:+ s) (motive_2 := fun s r _ _ _ => r <:+ s) (motive_3 := fun s r _ _ _ => r <:+ s)
    (motive_4 := fun s r _ _ _ => r <:+ s) ?_ ?_ ?_ ?_ ?_ ?_ ?_ ?_ ?_ ?_ ?_ ?_ hl
  · intro s r _ _ _ h
    exact ((List.suffix_cons _ _).trans h).trans (List.suffix_cons _ _)
  · intro r; exact List.suffix_cons _ _
  · intro r; exact List.suffix_cons _ _
  · intro s _; exact (List.drop_suffix _ _).trans (List.suffix_cons _ _)
  · intro c s _; exact List.drop_suffix _ _
  · intro s r _ _ _ h; exact h
  · intro s r _ _ _ h; exact (List.suffix_cons _ _).trans h
  · intro s r _ _ _ h; exact (List.suffix_cons _ _).trans h
  · intro s r _ _ _ h; exact h
  · intro s m r _ _ _ _ _ _ h1 h2; exact h2.trans h1
  · intro s r _ _ _ h; exact h
  · intro s m r _ _ _ _ _ _ h1 h2; exact (h2.trans (List.suffix_cons _ _)).trans h1

/-- The parser reads at least as far as any expression at the beginning of the text. -/
theorem expression_longest_aux (h : Segmentation cl) {s r : Str} {L : Language Str} {gs : List Str} (hl : ExprL cl s r L gs) :
    Starts s ∧ r.length < s.length ∧ ∀ d, s.length ≤ d → ∃ t m ts r', sequence cl (expression cl d) s = some (t, m) ∧
        Chain (preceded (oneOf ['|']) (sequence cl (expression cl d))) m ts r' ∧ r'.length ≤ r.length := by
  refine ExprL.rec
    (motive_1 := fun s r _ _ _ => Starts s ∧ r.length < s.length ∧ ∀ d, s.length ≤ d → ∃ t, atomP cl (expression cl d) s = some (t, r))
    (motive_2 := fun s r _ _ _ => Starts s ∧ r.length < s.length ∧ ∀ d, s.length ≤ d →
      ∃ t r', itemP cl (expression cl d) s = some (t, r') ∧ r'.length ≤ r.length ∧ ((∀ c ∈ r.head?, c ∉ ['+', '*']) → r' = r))
    (motive_3 := fun s r _ _ _ => Starts s ∧ r.length < s.length ∧ ∀ d, s.length ≤ d →
      ∃ ts r', ts ≠ [] ∧ Chain (itemP cl (expression cl d)) s ts r' ∧ r'.length ≤ r.length ∧ (Follows r → r' = r))
    (motive_4 := fun s r _ _ _ => Starts s ∧ r.length < s.length ∧ ∀ d, s.length ≤ d →
      ∃ t m ts r', sequence cl (expression cl d) s = some (t, m) ∧
        Chain (preceded (oneOf ['|']) (sequence cl (expression cl d))) m ts r' ∧ r'.length ≤ r.length)
    ?_ ?_ ?_ ?_ ?_ ?_ ?_ ?_ ?_ ?_ ?_ ?_ hl
  · -- par
    rintro s r L gs he ⟨_, h2, _⟩
    refine ⟨⟨'(', s, rfl, by decide, by decide, by decide, by decide⟩, by simp at h2 ⊢; omega, fun d hd => ?_⟩
    simp only [List.length_cons] at hd
    obtain ⟨d, rfl⟩ : ∃ d', d = d' + 1 := ⟨d - 1, by omega⟩
    obtain ⟨t, m, ts, h4, h5, h6⟩ := (expr_complete_aux h he).2.2 d (by omega) (by intro c hc; cases hc; rfl)
    have hce := expression_consumes h d
    have h7 : expression cl (d + 1) s = some (wrapMultiple .alt (t :: ts), ')' :: r) := by
      refine map_some.2 ⟨t :: ts, (separatedList1_iff (oneOf_consumes _) (sequence_consumes h hce).shrinks).2
        ⟨t, ts, m, rfl, h4, h5, preceded_none.2 (Or.inl (oneOf_none.2 ?_))⟩, rfl⟩
      intro c hc; cases hc; decide
    exact ⟨_, alt_some.2 (Or.inl (delimited_some.2 ⟨'(', ')', s, ')' :: r, oneOf_some.2 ⟨by decide, rfl⟩, h7,
      oneOf_some.2 ⟨by decide, rfl⟩⟩))⟩
  · intro r
    exact ⟨⟨'ε', r, rfl, by decide, by decide, by decide, by decide⟩, by simp, fun d _ =>
      ⟨_, atom_of_char (by decide) (regexChar_eps r)⟩⟩
  · intro r
    exact ⟨⟨'∅', r, rfl, by decide, by decide, by decide, by decide⟩, by simp, fun d _ =>
      ⟨_, atom_of_char (by decide) (regexChar_empty r)⟩⟩
  · intro s hs
    exact ⟨⟨'\\', s, rfl, by decide, by decide, by decide, by decide⟩, by simp; omega, fun d _ =>
      ⟨_, atom_of_char (by decide) (regexChar_esc hs)⟩⟩
  · intro c s hc
    have hp := h.pos (c :: s) (by simp)
    have hr : ∀ x, IsReserved x → c ≠ x := fun x hx he => hc (he ▸ hx)
    refine ⟨⟨c, s, rfl, hr _ ?_, hr _ ?_, hr _ ?_, hr _ ?_⟩, by simp; omega, fun d _ =>
      ⟨_, atom_of_char (hr _ ?_) (regexChar_plain h hc)⟩⟩ <;> (unfold IsReserved; simp)
  · -- item, atom
    rintro s r L gs _ ⟨h1, h2, h3⟩
    refine ⟨h1, h2, fun d hd => ?_⟩
    obtain ⟨t, h4⟩ := h3 d hd
    by_cases hr : ∀ c ∈ r.head?, c ∉ ['+', '*']
    · exact ⟨t, r, item_complete h4 hr, Nat.le_refl _, fun _ => rfl⟩
    · match r, hr, h4 with
      | [], hr, _ => exact absurd (by intro c hc; cases hc) hr
      | c :: r, hr, h4 =>
        by_cases hc : c = '+'
        · subst hc; exact ⟨_, r, item_complete_plus h4, by simp, fun h => absurd h hr⟩
        · by_cases hc2 : c = '*'
          · subst hc2; exact ⟨_, r, item_complete_star h4, by simp, fun h => absurd h hr⟩
          · refine absurd ?_ hr
            intro d hd; cases hd; simp [hc, hc2]
  · rintro s r L gs _ ⟨h1, h2, h3⟩
    refine ⟨h1, by simp at h2; omega, fun d hd => ?_⟩
    obtain ⟨t, h4⟩ := h3 d hd
    exact ⟨_, r, item_complete_star h4, Nat.le_refl _, fun _ => rfl⟩
  · rintro s r L gs _ ⟨h1, h2, h3⟩
    refine ⟨h1, by simp at h2; omega, fun d hd => ?_⟩
    obtain ⟨t, h4⟩ := h3 d hd
    exact ⟨_, r, item_complete_plus h4, Nat.le_refl _, fun _ => rfl⟩
  · rintro s r L gs _ ⟨h1, h2, h3⟩
    refine ⟨h1, h2, fun d hd => ?_⟩
    obtain ⟨t, r', h4, h5, h6⟩ := h3 d hd
    exact ⟨[t], r', by simp, .cons h4 (.nil _), h5, fun h => h6 (follows_noKleene h)⟩
  · rintro s m r L M gs hs _ _ ⟨h1, h2, h3⟩ ⟨h4, h5, h6⟩
    refine ⟨h1, by omega, fun d hd => ?_⟩
    obtain ⟨t, m', h7, _, h8⟩ := h3 d hd
    obtain rfl := h8 (starts_noKleene h4)
    obtain ⟨ts, r', _, h9, h10, h11⟩ := h6 d (by omega)
    exact ⟨t :: ts, r', by simp, .cons h7 h9, h10, h11⟩
  · rintro s r L gs _ ⟨h1, h2, h3⟩
    refine ⟨h1, h2, fun d hd => ?_⟩
    obtain ⟨ts, r', h4, h5, h6, _⟩ := h3 d hd
    have hc := itemP_consumes h (expression_consumes h d)
    obtain ⟨us, r2, h7, h8⟩ := chain_total hc _ r' (Nat.le_refl _)
    have := chain_shrinks hc.shrinks h7
    exact ⟨_, r2, [], r2, map_some.2 ⟨ts ++ us, (many1_iff hc).2 ⟨by simp [h4], chain_append h5 h7, h8⟩, rfl⟩, .nil _, by omega⟩
  · rintro s m r L M gs hs _ _ ⟨h1, h2, h3⟩ ⟨h4, h5, h6⟩
    simp only [List.length_cons] at h2
    refine ⟨h1, by omega, fun d hd => ?_⟩
    have hf : Follows ('|' :: m) := fun c hc => by cases hc; exact Or.inr rfl
    obtain ⟨ts, r', h7, h8, _, h9⟩ := h3 d hd
    obtain rfl := h9 hf
    obtain ⟨t, m', ts', r2, h10, h11, h12⟩ := h6 d (by omega)
    exact ⟨_, '|' :: m, t :: ts', r2, map_some.2 ⟨ts, (many1_iff (itemP_consumes h (expression_consumes h d))).2
      ⟨h7, h8, itemP_follow hf h _⟩, rfl⟩, .cons (preceded_some.2 ⟨'|', m, oneOf_some.2 ⟨by decide, rfl⟩, h10⟩) h11, h12⟩

theorem expression_longest (h : Segmentation cl) {s r : Str} {L : Language Str} {gs : List Str} (hl : ExprL cl s r L gs) {d : Nat}
    (hd : s.length < d) : ∃ t r', expression cl d s = some (t, r') ∧ r'.length ≤ r.length := by
  obtain ⟨d, rfl⟩ : ∃ d', d = d' + 1 := ⟨d - 1, by omega⟩
  obtain ⟨_, _, h3⟩ := expression_longest_aux h hl
  obtain ⟨t, m, ts, r', h4, h5, h6⟩ := h3 d (by omega)
  have hs := sequence_consumes h (expression_consumes h d)
  have hc : Consumes (preceded (oneOf ['|']) (sequence cl (expression cl d))) := preceded_consumes (oneOf_consumes _) hs.shrinks
  obtain ⟨us, r2, h7, h8⟩ := chain_total hc _ r' (Nat.le_refl _)
  have := chain_shrinks hc.shrinks h7
  exact ⟨_, r2, map_some.2 ⟨t :: (ts ++ us), (separatedList1_iff (oneOf_consumes _) hs.shrinks).2
    ⟨t, ts ++ us, m, rfl, h4, chain_append h5 h7, h8⟩, rfl⟩, by omega⟩

theorem chain_last {α : Type} {p : P α} {s r : Str} {as : List α} (h : Chain p s as r) : as ≠ [] → ∃ m a, p m = some (a, r) := by
  induction h with
  | nil => intro h; exact absurd rfl h
  | @cons s m r a as h1 h2 ih =>
    intro _
    cases as with
    | nil => cases h2; exact ⟨s, a, h1⟩
    | cons b bs => exact ih (by simp)

/-- The parser stops before a reserved character, and not before `ε` or `∅`. -/
theorem expression_stops (h : Segmentation cl) {d : Nat} {s r : Str} {t : RegexTree} (hs : expression cl d s = some (t, r)) :
    ∀ c ∈ r.head?, c = '|' ∨ c = '*' ∨ c = '+' ∨ c = '\\' ∨ c = '(' ∨ c = ')' := by
  cases d with
  | zero => cases hs
  | succ d =>
    obtain ⟨ts, h1, rfl⟩ := map_some.1 hs
    have hce := expression_consumes h d
    obtain ⟨a, as, m, rfl, h2, h3, _⟩ := (separatedList1_iff (oneOf_consumes _) (sequence_consumes h hce).shrinks).1 h1
    have : ∃ m t, sequence cl (expression cl d) m = some (t, r) := by
      by_cases ha : as = []
      · subst ha; cases h3; exact ⟨_, _, h2⟩
      · obtain ⟨m', b, h4⟩ := chain_last h3 ha
        obtain ⟨_, _, _, h5⟩ := preceded_some.1 h4
        exact ⟨_, _, h5⟩
    obtain ⟨m', t', h4⟩ := this
    obtain ⟨us, h5, _⟩ := map_some.1 h4
    obtain ⟨_, _, h6⟩ := (many1_iff (itemP_consumes h hce)).1 h5
    cases r with
    | nil => intro c hc; cases hc
    | cons c r =>
      intro c' hc'
      cases hc'
      rw [itemP_eq, map_none, pair_none] at h6
      rcases h6 with h6 | ⟨_, _, _, h6⟩
      · obtain ⟨_, h7⟩ := alt_none.1 h6
        rw [map_none] at h7
        by_contra hno
        have hnr : c = '∅' ∨ c = 'ε' ∨ ¬ IsReserved c := by unfold IsReserved; tauto
        rcases hnr with rfl | rfl | hnr
        · rw [regexChar_empty] at h7; cases h7
        · rw [regexChar_eps] at h7; cases h7
        · rw [regexChar_plain h hnr] at h7; cases h7
      · exact absurd h6 (opt_total _ _)

end rest

/-! ## The errors -/

namespace RegexE
open PE
variable {cl : Str → Nat}

theorem oneCluster_erases : Erases (oneCluster cl) (RegexParser.oneCluster cl) := by intro s; cases s <;> rfl

theorem regexChar_erases : Erases (regexChar cl) (RegexParser.regexChar cl) :=
  alt_erases (value_erases (oneOf_erases _ _)) (alt_erases (value_erases (oneOf_erases _ _))
    (alt_erases (preceded_erases (oneOf_erases _ _) oneCluster_erases) (verify_erases oneCluster_erases _)))

theorem item_erases {e : PE RegexTree} {e' : P RegexTree} (h : Erases e e') :
    Erases (alt (parExpr e) (combinatedChar cl)) (itemP cl e') :=
  alt_erases (map_erases (pair_erases (delimited_erases (oneOf_erases _ _) h (oneOf_erases _ _)) (opt_erases (oneOf_erases _ _))))
    (map_erases (pair_erases (map_erases regexChar_erases) (opt_erases (oneOf_erases _ _))))

theorem sequence_erases {e : PE RegexTree} {e' : P RegexTree} (h : Erases e e') : Erases (sequence cl e) (RegexParser.sequence cl e') :=
  map_erases (many1_erases (item_erases h))

theorem expression_erases : ∀ d, Erases (expression cl d) (RegexParser.expression cl d)
  | 0 => fun _ => rfl
  | d + 1 => map_erases (separatedList1_erases (oneOf_erases _ _) (sequence_erases (expression_erases d)))

theorem fullRegex_erases : Erases (fullRegex cl) (RegexParser.fullRegex cl) := fun _ => expression_erases _ _

theorem alt_err_last {α : Type} {p q : PE α} {s : Str} {e : NomError} (h : alt p q s = .err e) : q s = .err e := by
  unfold alt at h
  split at h
  · exact h
  · cases h

/-- The only errors are those of the first character. -/
theorem expression_err (h : Segmentation cl) {d : Nat} {s : Str} {e : NomError} (he : expression cl (d + 1) s = .err e) :
    e = ⟨s, if s = [] then .fail else .verify⟩ := by
  have hce := expression_consumes h d
  have h1 := (separatedList1_err (oneOf_erases _ _) (sequence_erases (expression_erases d)) (P.oneOf_consumes _)
    (sequence_consumes h hce).shrinks).1 (map_err.1 he)
  rcases pair_err.1 (map_err.1 (map_err.1 h1)) with h2 | ⟨_, _, _, h2⟩
  · rcases pair_err.1 (map_err.1 (alt_err_last h2)) with h3 | ⟨_, _, _, h3⟩
    · have h4 := alt_err_last (alt_err_last (alt_err_last (map_err.1 h3)))
      rcases verify_err.1 h4 with h5 | ⟨a, r, h5, _, rfl⟩
      · cases s with
        | nil => cases h5; rfl
        | cons c s => cases h5
      · cases s with
        | nil => cases h5
        | cons c s => rfl
    · exact absurd h3 (FaE.opt_no_err _ _)
  · exact absurd h2 (many0_no_err (item_erases (expression_erases d)) (itemP_consumes h hce) _ _)

theorem regex_ok {t : Str} {r : RegexTree} : regex cl t = .ok r ↔ RegexParser.regex cl t = some r := FaE.allConsuming_erases fullRegex_erases

/-- The error of a text which is no regular expression. -/
theorem regex_error (h : Segmentation cl) {text core : Str} (ht : Trimmed text core) {e : NomError} :
    regex cl text = .error e ↔ (core = [] ∧ e = ⟨[], .fail⟩) ∨
      (core ≠ [] ∧ (∀ r L gs, ¬ ExprL cl core r L gs) ∧ e = ⟨core, .verify⟩) ∨
      (e.code = .eof ∧ e.input ≠ [] ∧ (∃ L gs, ExprL cl core e.input L gs) ∧ ∀ r L gs, ExprL cl core r L gs → e.input.length ≤ r.length) := by
  have hno : ∀ r L gs, ¬ ExprL cl [] r L gs := by
    intro r L gs hl
    have := (expr_complete_aux h hl).2.1
    simp at this
  have hfull : fullRegex cl text = expression cl (core.length + 1) core := by unfold fullRegex; rw [trim_eq ht]
  unfold regex
  rw [FaE.allConsuming_error, hfull]
  have key : ∀ {e}, expression cl (core.length + 1) core = .err e → ∀ r L gs, ¬ ExprL cl core r L gs := by
    intro e he r L gs hl
    obtain ⟨t, r', h1, _⟩ := expression_longest h hl (Nat.lt_succ_self _)
    rw [← expression_erases, he] at h1
    cases h1
  constructor
  · rintro (he | ⟨t, he, h2, h3⟩)
    · have h1 := expression_err h he
      by_cases hc : core = []
      · left; rw [hc] at h1; exact ⟨hc, by simpa using h1⟩
      · right; left; rw [if_neg hc] at h1; exact ⟨hc, key he, h1⟩
    · right; right
      have he' := (erases_ok (expression_erases _)).1 he
      refine ⟨h3, h2, ⟨_, _, expression_sound h _ _ _ _ he'⟩, ?_⟩
      intro r L gs hl
      obtain ⟨t', r', h4, h5⟩ := expression_longest h hl (Nat.lt_succ_self _)
      rw [he'] at h4
      cases h4
      exact h5
  · have run : (∃ e, expression cl (core.length + 1) core = .err e) ∨ ∃ t r, expression cl (core.length + 1) core = .ok t r := by
      cases expression cl (core.length + 1) core with
      | err e => exact Or.inl ⟨e, rfl⟩
      | ok t r => exact Or.inr ⟨t, r, rfl⟩
    rintro (⟨rfl, rfl⟩ | ⟨hc, hn, rfl⟩ | ⟨h1, h2, ⟨L, gs, h3⟩, h4⟩)
    · left
      rcases run with ⟨e, he⟩ | ⟨t, r, he⟩
      · rw [he, expression_err h he]; rfl
      · exact absurd (expression_sound h _ _ _ _ ((erases_ok (expression_erases _)).1 he)) (hno _ _ _)
    · left
      rcases run with ⟨e, he⟩ | ⟨t, r, he⟩
      · rw [he, expression_err h he, if_neg hc]
      · exact absurd (expression_sound h _ _ _ _ ((erases_ok (expression_erases _)).1 he)) (hn _ _ _)
    · right
      rcases run with ⟨e', he⟩ | ⟨t, r, he⟩
      · exact absurd h3 (key he _ _ _)
      · have he' := (erases_ok (expression_erases _)).1 he
        have hs := expression_sound h _ _ _ _ he'
        obtain ⟨t', r', h5, h6⟩ := expression_longest h h3 (Nat.lt_succ_self _)
        rw [he'] at h5
        cases h5
        have h7 := h4 _ _ _ hs
        have h8 : r = e.input := by
          have := List.suffix_of_suffix_length_le (expr_suffix hs) (expr_suffix h3) h6
          exact this.eq_of_length (by omega)
        exact ⟨t, h8 ▸ he, h2, h1⟩

theorem regex_stops (h : Segmentation cl) {text : Str} {e : NomError} (he : regex cl text = .error e) (hc : e.code = .eof) :
    ∀ c ∈ e.input.head?, c = '|' ∨ c = '*' ∨ c = '+' ∨ c = '\\' ∨ c = '(' ∨ c = ')' := by
  rcases FaE.allConsuming_error.1 he with h1 | ⟨t, h1, _, _⟩
  · have := expression_err h h1
    rw [this] at hc
    dsimp only at hc
    split at hc <;> cases hc
  · exact expression_stops h ((erases_ok (expression_erases _)).1 h1)

end RegexE
end Dandy
