import Verif.Proofs.FaParser
import Verif.Proofs.RegexParser
import Verif.Spec.ParseErrors
/-! # The errors of the parsers -/

namespace Dandy

/-- The same parser without errors. -/
def Erases {α : Type} (p : PE α) (q : P α) : Prop := ∀ s, (p s).toOption = q s

theorem toOption_ok {α : Type} (a : α) (r : Str) : (Res.ok a r).toOption = some (a, r) := rfl
theorem toOption_err {α : Type} (e : NomError) : (Res.err e : Res α).toOption = none := rfl

namespace PE
variable {α β γ : Type}

theorem map_erases {f : α → β} {p : PE α} {q : P α} (h : Erases p q) : Erases (map f p) (P.map f q) := by
  intro s
  unfold map P.map
  rw [← h s]
  cases p s <;> rfl

theorem pair_erases {p : PE α} {p' : P α} {q : PE β} {q' : P β} (h : Erases p p') (h2 : Erases q q') :
    Erases (pair p q) (P.pair p' q') := by
  intro s
  unfold pair P.pair
  rw [← h s]
  cases p s with
  | err e => rfl
  | ok a r =>
    simp only [toOption_ok]
    rw [← h2 r]
    cases q r <;> rfl

theorem preceded_erases {p : PE α} {p' : P α} {q : PE β} {q' : P β} (h : Erases p p') (h2 : Erases q q') :
    Erases (preceded p q) (P.preceded p' q') := map_erases (pair_erases h h2)

theorem terminated_erases {p : PE α} {p' : P α} {q : PE β} {q' : P β} (h : Erases p p') (h2 : Erases q q') :
    Erases (terminated p q) (P.terminated p' q') := map_erases (pair_erases h h2)

theorem delimited_erases {p : PE α} {p' : P α} {q : PE β} {q' : P β} {t : PE γ} {t' : P γ} (h : Erases p p') (h2 : Erases q q')
    (h3 : Erases t t') : Erases (delimited p q t) (P.delimited p' q' t') := preceded_erases h (terminated_erases h2 h3)

theorem alt_erases {p q : PE α} {p' q' : P α} (h : Erases p p') (h2 : Erases q q') : Erases (alt p q) (P.alt p' q') := by
  intro s
  unfold alt P.alt
  rw [← h s]
  cases p s with
  | err e => exact h2 s
  | ok a r => rfl

theorem opt_erases {p : PE α} {p' : P α} (h : Erases p p') : Erases (opt p) (P.opt p') := by
  intro s
  unfold opt P.opt
  rw [← h s]
  cases p s <;> rfl

theorem verify_erases {p : PE α} {p' : P α} (h : Erases p p') (f : α → Bool) : Erases (verify p f) (P.verify p' f) := by
  intro s
  unfold verify P.verify
  rw [← h s]
  cases p s with
  | err e => rfl
  | ok a r => simp only [toOption_ok]; cases f a <;> rfl

theorem value_erases {b : β} {p : PE α} {p' : P α} (h : Erases p p') : Erases (value b p) (P.value b p') := map_erases h

theorem recognize_erases {p : PE α} {p' : P α} (h : Erases p p') : Erases (recognize p) (P.recognize p') := by
  intro s
  unfold recognize P.recognize
  rw [← h s]
  cases p s <;> rfl

theorem oneOf_erases (k : ErrorKind) (cs : List Char) : Erases (oneOf k cs) (P.oneOf cs) := by
  intro s
  unfold oneOf P.oneOf
  cases s with
  | nil => rfl
  | cons c r => simp only; split <;> rfl

theorem tag_erases (t : Str) : Erases (tag t) (P.tag t) := by
  intro s
  unfold tag P.tag
  split <;> rfl

theorem takeTill1_erases (k : ErrorKind) (f : Char → Bool) : Erases (takeTill1 k f) (P.takeTill1 f) := by
  intro s
  unfold takeTill1 P.takeTill1 P.verify P.takeTill
  simp only
  by_cases h : (s.takeWhile (fun c => !f c)).isEmpty = true
  · simp only [h, if_true, toOption_err]; rfl
  · rw [if_neg h, if_pos (by simpa using h)]; rfl

theorem space0_erases : Erases space0 P.space0 := by
  intro s
  unfold space0 P.space0 P.takeTill Res.toOption
  simp only [Bool.not_not]

theorem space1_erases : Erases space1 P.space1 := takeTill1_erases _ _

theorem lineEnding_erases : Erases lineEnding P.lineEnding := by
  intro s
  unfold lineEnding P.lineEnding P.alt P.tag
  split
  · simp [Res.toOption]
  · simp [Res.toOption]
  · rename_i h1 h2
    have e1 : (['\n'] : Str).isPrefixOf s = false := by
      rw [← Bool.not_eq_true, List.isPrefixOf_iff_prefix]
      rintro ⟨r, rfl⟩; exact h1 r rfl
    have e2 : (['\r', '\n'] : Str).isPrefixOf s = false := by
      rw [← Bool.not_eq_true, List.isPrefixOf_iff_prefix]
      rintro ⟨r, rfl⟩; exact h2 r rfl
    simp only [e1, e2, Bool.false_eq_true, if_false]
    rfl

theorem notLineEnding_erases : Erases notLineEnding P.notLineEnding := by
  intro s
  unfold notLineEnding P.notLineEnding
  simp only
  generalize s.dropWhile (fun c => !(c == '\n' || c == '\r')) = r
  split
  · rfl
  · rename_i h; split
    · rename_i h2; cases h2; exact absurd rfl (h _)
    · rfl
    · rename_i h2; exact absurd rfl (h2 _)
  · rename_i h1 h2; split
    · exact absurd rfl (h1 _)
    · exact absurd rfl (h2 _)
    · rfl

theorem eof_erases : Erases eof P.eof := by
  intro s
  unfold eof P.eof
  split <;> rfl

theorem many0Loop_erases {p : PE α} {p' : P α} (h : Erases p p') : ∀ fuel, Erases (many0Loop p fuel) (P.many0Loop p' fuel)
  | 0, _ => rfl
  | fuel + 1, s => by
    rw [many0Loop, P.many0Loop, ← h s]
    cases p s with
    | err e => rfl
    | ok a r =>
      simp only [toOption_ok]
      split
      · rfl
      · have := many0Loop_erases h fuel r
        rw [← this]
        cases many0Loop p fuel r <;> rfl

theorem many0_erases {p : PE α} {p' : P α} (h : Erases p p') : Erases (many0 p) (P.many0 p') := fun s => many0Loop_erases h _ s

theorem many1_erases {p : PE α} {p' : P α} (h : Erases p p') : Erases (many1 p) (P.many1 p') :=
  map_erases (pair_erases h (many0_erases h))

theorem sepLoop_erases {sep : PE β} {sep' : P β} {p : PE α} {p' : P α} (hs : Erases sep sep') (h : Erases p p') :
    ∀ fuel, Erases (sepLoop sep p fuel) (P.sepLoop sep' p' fuel)
  | 0, _ => rfl
  | fuel + 1, s => by
    rw [sepLoop, P.sepLoop, ← hs s]
    cases sep s with
    | err e => rfl
    | ok a r =>
      simp only [toOption_ok]
      split
      · rfl
      · rw [← h r]
        cases p r with
        | err e => rfl
        | ok b r' =>
          simp only [toOption_ok]
          rw [← sepLoop_erases hs h fuel r']
          cases sepLoop sep p fuel r' <;> rfl

theorem separatedList1_erases {sep : PE β} {sep' : P β} {p : PE α} {p' : P α} (hs : Erases sep sep') (h : Erases p p') :
    Erases (separatedList1 sep p) (P.separatedList1 sep' p') := by
  intro s
  unfold separatedList1 P.separatedList1
  rw [← h s]
  cases p s with
  | err e => rfl
  | ok a r =>
    simp only [toOption_ok]
    rw [← sepLoop_erases hs h _ r]
    cases sepLoop sep p (r.length + 1) r <;> rfl

theorem separatedList0_erases {sep : PE β} {sep' : P β} {p : PE α} {p' : P α} (hs : Erases sep sep') (h : Erases p p') :
    Erases (separatedList0 sep p) (P.separatedList0 sep' p') := by
  intro s
  unfold separatedList0 P.separatedList0
  rw [← h s]
  cases p s with
  | err e => rfl
  | ok a r =>
    simp only [toOption_ok]
    rw [← sepLoop_erases hs h _ r]
    cases sepLoop sep p (r.length + 1) r <;> rfl

theorem erases_ok {p : PE α} {q : P α} (h : Erases p q) {s r : Str} {a : α} : p s = .ok a r ↔ q s = some (a, r) := by
  rw [← h s]
  cases p s <;> simp [Res.toOption]

theorem erases_err {p : PE α} {q : P α} (h : Erases p q) {s : Str} : (∃ e, p s = .err e) ↔ q s = none := by
  rw [← h s]
  cases p s <;> simp [Res.toOption]

/-! ## Where errors come from -/

theorem map_err {f : α → β} {p : PE α} {s : Str} {e : NomError} : map f p s = .err e ↔ p s = .err e := by
  unfold map
  cases p s <;> simp

theorem map_ok {f : α → β} {p : PE α} {s r : Str} {b : β} : map f p s = .ok b r ↔ ∃ a, p s = .ok a r ∧ f a = b := by
  unfold map
  cases p s with
  | err e => simp
  | ok a r' =>
    simp only [Res.ok.injEq]
    constructor
    · rintro ⟨rfl, rfl⟩; exact ⟨a, ⟨rfl, rfl⟩, rfl⟩
    · rintro ⟨_, ⟨rfl, rfl⟩, rfl⟩; exact ⟨rfl, rfl⟩

theorem pair_err {p : PE α} {q : PE β} {s : Str} {e : NomError} :
    pair p q s = .err e ↔ p s = .err e ∨ ∃ a m, p s = .ok a m ∧ q m = .err e := by
  unfold pair
  cases p s with
  | err e' => simp
  | ok a m =>
    simp only [reduceCtorEq, false_or]
    cases h : q m with
    | err e' =>
      simp only [Res.err.injEq]
      constructor
      · rintro rfl; exact ⟨a, m, rfl, h⟩
      · rintro ⟨_, _, h2, h3⟩; cases h2; rw [h] at h3; cases h3; rfl
    | ok b r =>
      simp only [reduceCtorEq, false_iff]
      rintro ⟨_, _, h2, h3⟩; cases h2; rw [h] at h3; cases h3

theorem pair_ok {p : PE α} {q : PE β} {s r : Str} {x : α × β} :
    pair p q s = .ok x r ↔ ∃ m, p s = .ok x.1 m ∧ q m = .ok x.2 r := by
  unfold pair
  obtain ⟨a, b⟩ := x
  cases h : p s with
  | err e => simp
  | ok a' m =>
    simp only
    cases h2 : q m with
    | err e =>
      simp only [reduceCtorEq, false_iff]
      rintro ⟨m', h3, h4⟩
      cases h3; rw [h2] at h4; cases h4
    | ok b' r' =>
      simp only [Res.ok.injEq, Prod.mk.injEq]
      constructor
      · rintro ⟨⟨rfl, rfl⟩, rfl⟩; exact ⟨m, ⟨rfl, rfl⟩, h2⟩
      · rintro ⟨m', ⟨rfl, rfl⟩, h3⟩
        rw [h2] at h3; cases h3; exact ⟨⟨rfl, rfl⟩, rfl⟩

theorem preceded_err {p : PE α} {q : PE β} {s : Str} {e : NomError} :
    preceded p q s = .err e ↔ p s = .err e ∨ ∃ a m, p s = .ok a m ∧ q m = .err e := by
  unfold preceded; rw [map_err, pair_err]

theorem terminated_err {p : PE α} {q : PE β} {s : Str} {e : NomError} :
    terminated p q s = .err e ↔ p s = .err e ∨ ∃ a m, p s = .ok a m ∧ q m = .err e := by
  unfold terminated; rw [map_err, pair_err]

theorem delimited_err {p : PE α} {q : PE β} {t : PE γ} {s : Str} {e : NomError} :
    delimited p q t s = .err e ↔ p s = .err e ∨ (∃ a m, p s = .ok a m ∧ q m = .err e) ∨
      ∃ a m b n, p s = .ok a m ∧ q m = .ok b n ∧ t n = .err e := by
  unfold delimited
  rw [preceded_err]
  constructor
  · rintro (h | ⟨a, m, h1, h2⟩)
    · exact Or.inl h
    · rcases terminated_err.1 h2 with h | ⟨b, n, h3, h4⟩
      · exact Or.inr (Or.inl ⟨a, m, h1, h⟩)
      · exact Or.inr (Or.inr ⟨a, m, b, n, h1, h3, h4⟩)
  · rintro (h | ⟨a, m, h1, h2⟩ | ⟨a, m, b, n, h1, h3, h4⟩)
    · exact Or.inl h
    · exact Or.inr ⟨a, m, h1, terminated_err.2 (Or.inl h2)⟩
    · exact Or.inr ⟨a, m, h1, terminated_err.2 (Or.inr ⟨b, n, h3, h4⟩)⟩

theorem many0_no_err {p : PE α} {p' : P α} (h : Erases p p') (hp : P.Consumes p') (s : Str) (e : NomError) : many0 p s ≠ .err e := by
  intro he
  obtain ⟨as, r, h1⟩ := P.many0_total hp s
  have := (erases_err (many0_erases h)).1 ⟨e, he⟩
  rw [h1] at this; cases this

theorem sepLoop_no_err {sep : PE β} {sep' : P β} {p : PE α} {p' : P α} (hs : Erases sep sep') (h : Erases p p')
    (hcs : P.Consumes sep') (hcp : P.Shrinks p') (s : Str) (e : NomError) : sepLoop sep p (s.length + 1) s ≠ .err e := by
  intro he
  obtain ⟨as, r, h1, h2⟩ := P.chain_total (P.preceded_consumes hcs hcp) s.length s (Nat.le_refl _)
  have h3 := (P.sepLoop_eq hcs _ s (Nat.lt_succ_self _) hcp as r).2 ⟨h1, h2⟩
  have := (erases_err (sepLoop_erases hs h _)).1 ⟨e, he⟩
  rw [h3] at this; cases this

theorem separatedList1_err {sep : PE β} {sep' : P β} {p : PE α} {p' : P α} (hs : Erases sep sep') (h : Erases p p')
    (hcs : P.Consumes sep') (hcp : P.Shrinks p') {s : Str} {e : NomError} : separatedList1 sep p s = .err e ↔ p s = .err e := by
  unfold separatedList1
  cases h1 : p s with
  | err e' => simp
  | ok a r =>
    simp only [reduceCtorEq, iff_false]
    have := sepLoop_no_err hs h hcs hcp r e
    cases h2 : sepLoop sep p (r.length + 1) r with
    | err e' => simp only [Res.err.injEq]; rintro rfl; exact this h2
    | ok as r' => simp

theorem separatedList0_no_err {sep : PE β} {sep' : P β} {p : PE α} {p' : P α} (hs : Erases sep sep') (h : Erases p p')
    (hcs : P.Consumes sep') (hcp : P.Shrinks p') (s : Str) (e : NomError) : separatedList0 sep p s ≠ .err e := by
  unfold separatedList0
  cases h1 : p s with
  | err e' => simp
  | ok a r =>
    have := sepLoop_no_err hs h hcs hcp r e
    simp only
    cases h2 : sepLoop sep p (r.length + 1) r with
    | err e' => simp only [ne_eq, Res.err.injEq]; rintro rfl; exact this h2
    | ok as r' => simp

theorem verify_err {p : PE α} {f : α → Bool} {s : Str} {e : NomError} :
    verify p f s = .err e ↔ p s = .err e ∨ ∃ a r, p s = .ok a r ∧ f a = false ∧ e = ⟨s, .verify⟩ := by
  unfold verify
  cases h : p s with
  | err e' => simp
  | ok a r =>
    simp only [reduceCtorEq, false_or, Res.ok.injEq]
    split
    · rename_i hf
      simp only [reduceCtorEq, false_iff]
      rintro ⟨_, _, ⟨rfl, rfl⟩, h2, _⟩
      rw [hf] at h2; cases h2
    · rename_i hf
      simp only [Res.err.injEq]
      constructor
      · rintro rfl; exact ⟨a, r, ⟨rfl, rfl⟩, by simpa using hf, rfl⟩
      · rintro ⟨_, _, _, _, rfl⟩; rfl

/-! ## Parsers which stay within a line -/

/-- What is consumed has no line feed. -/
def OkIn (p : PE α) : Prop := ∀ s a r, p s = .ok a r → ∃ y, s = y ++ r ∧ '\n' ∉ y

/-- The place of an error is within the line, and what is wrong there is as the code says. -/
def ErrIn (nfa : Prop) (p : PE α) : Prop :=
  ∀ s e, p s = .err e → (∃ y, s = y ++ e.input ∧ '\n' ∉ y) ∧ TableText.Expected nfa e.code e.input

theorem noNl_append {a b : Str} (ha : '\n' ∉ a) (hb : '\n' ∉ b) : '\n' ∉ a ++ b := by
  simp [ha, hb]

theorem okIn_map {f : α → β} {p : PE α} (h : OkIn p) : OkIn (map f p) := by
  intro s b r hs
  obtain ⟨a, h1, _⟩ := map_ok.1 hs
  exact h _ _ _ h1

theorem okIn_pair {p : PE α} {q : PE β} (h : OkIn p) (h2 : OkIn q) : OkIn (pair p q) := by
  intro s x r hs
  obtain ⟨m, h3, h4⟩ := pair_ok.1 hs
  obtain ⟨y, rfl, hy⟩ := h _ _ _ h3
  obtain ⟨z, rfl, hz⟩ := h2 _ _ _ h4
  exact ⟨y ++ z, by simp, noNl_append hy hz⟩

theorem okIn_delimited {p : PE α} {q : PE β} {t : PE γ} (h : OkIn p) (h2 : OkIn q) (h3 : OkIn t) : OkIn (delimited p q t) :=
  okIn_map (okIn_pair h (okIn_map (okIn_pair h2 h3)))

theorem okIn_alt {p q : PE α} (h : OkIn p) (h2 : OkIn q) : OkIn (alt p q) := by
  intro s a r hs
  unfold alt at hs
  cases h3 : p s with
  | err e => rw [h3] at hs; exact h2 _ _ _ hs
  | ok b r' => rw [h3] at hs; cases hs; exact h _ _ _ h3

theorem okIn_opt {p : PE α} (h : OkIn p) : OkIn (opt p) := by
  intro s a r hs
  unfold opt at hs
  cases h3 : p s with
  | err e => rw [h3] at hs; cases hs; exact ⟨[], rfl, by simp⟩
  | ok b r' => rw [h3] at hs; cases hs; exact h _ _ _ h3

theorem okIn_verify {p : PE α} {f : α → Bool} (h : OkIn p) : OkIn (verify p f) := by
  intro s a r hs
  unfold verify at hs
  cases h3 : p s with
  | err e => rw [h3] at hs; cases hs
  | ok b r' =>
    rw [h3] at hs
    dsimp only at hs
    split at hs
    · cases hs; exact h _ _ _ h3
    · cases hs

theorem okIn_tag {t : Str} (h : '\n' ∉ t) : OkIn (tag t) := by
  intro s a r hs
  obtain ⟨_, rfl⟩ := tag_some.1 ((erases_ok (tag_erases t)).1 hs)
  exact ⟨t, rfl, h⟩

theorem okIn_takeTill1 {k : ErrorKind} {f : Char → Bool} (h : f '\n' = true) : OkIn (takeTill1 k f) := by
  intro s a r hs
  obtain ⟨rfl, _, h2, _⟩ := takeTill1_some.1 ((erases_ok (takeTill1_erases k f)).1 hs)
  exact ⟨a, rfl, fun hm => by rw [h2 _ hm] at h; cases h⟩

theorem okIn_space0 : OkIn space0 := by
  intro s a r hs
  obtain ⟨rfl, h1, _⟩ := space0_some.1 ((erases_ok space0_erases).1 hs)
  exact ⟨a, rfl, fun hm => by rcases h1 _ hm with h | h <;> revert h <;> decide⟩

theorem okIn_space1 : OkIn space1 := okIn_takeTill1 (by decide)

theorem okIn_notLineEnding : OkIn notLineEnding := by
  intro s a r hs
  obtain ⟨rfl, h1, _⟩ := notLineEnding_sound ((erases_ok notLineEnding_erases).1 hs)
  exact ⟨a, rfl, h1⟩

theorem okIn_sepLoop {sep : PE β} {p : PE α} (hs : OkIn sep) (hp : OkIn p) : ∀ fuel, OkIn (sepLoop sep p fuel)
  | 0, s, a, r, h => by cases h
  | fuel + 1, s, a, r, h => by
    rw [sepLoop] at h
    cases h1 : sep s with
    | err e => rw [h1] at h; cases h; exact ⟨[], rfl, by simp⟩
    | ok b m =>
      rw [h1] at h
      dsimp only at h
      split at h
      · cases h
      · cases h2 : p m with
        | err e => rw [h2] at h; cases h; exact ⟨[], rfl, by simp⟩
        | ok c m' =>
          rw [h2] at h
          dsimp only at h
          cases h3 : sepLoop sep p fuel m' with
          | err e => rw [h3] at h; cases h
          | ok cs r' =>
            rw [h3] at h
            cases h
            obtain ⟨y1, rfl, hy1⟩ := hs _ _ _ h1
            obtain ⟨y2, rfl, hy2⟩ := hp _ _ _ h2
            obtain ⟨y3, rfl, hy3⟩ := okIn_sepLoop hs hp fuel _ _ _ h3
            exact ⟨y1 ++ (y2 ++ y3), by simp, noNl_append hy1 (noNl_append hy2 hy3)⟩

theorem okIn_separatedList1 {sep : PE β} {p : PE α} (hs : OkIn sep) (hp : OkIn p) : OkIn (separatedList1 sep p) := by
  intro s as r h
  unfold separatedList1 at h
  cases h1 : p s with
  | err e => rw [h1] at h; cases h
  | ok a m =>
    rw [h1] at h
    dsimp only at h
    cases h2 : sepLoop sep p (m.length + 1) m with
    | err e => rw [h2] at h; cases h
    | ok as' r' =>
      rw [h2] at h
      cases h
      obtain ⟨y1, rfl, hy1⟩ := hp _ _ _ h1
      obtain ⟨y2, rfl, hy2⟩ := okIn_sepLoop hs hp _ _ _ _ h2
      exact ⟨y1 ++ y2, by simp, noNl_append hy1 hy2⟩

theorem okIn_separatedList0 {sep : PE β} {p : PE α} (hs : OkIn sep) (hp : OkIn p) : OkIn (separatedList0 sep p) := by
  intro s as r h
  cases h1 : p s with
  | err e => unfold separatedList0 at h; rw [h1] at h; cases h; exact ⟨[], rfl, by simp⟩
  | ok a m =>
    refine okIn_separatedList1 hs hp s as r ?_
    unfold separatedList0 at h
    unfold separatedList1
    rw [h1] at h ⊢
    exact h

variable {nfa : Prop}

theorem errIn_map {f : α → β} {p : PE α} (h : ErrIn nfa p) : ErrIn nfa (map f p) := fun s e hs => h s e (map_err.1 hs)

theorem errIn_pair {p : PE α} {q : PE β} (h : ErrIn nfa p) (ho : OkIn p) (h2 : ErrIn nfa q) : ErrIn nfa (pair p q) := by
  intro s e hs
  rcases pair_err.1 hs with h3 | ⟨a, m, h3, h4⟩
  · exact h _ _ h3
  · obtain ⟨y, rfl, hy⟩ := ho _ _ _ h3
    obtain ⟨⟨z, rfl, hz⟩, he⟩ := h2 _ _ h4
    exact ⟨⟨y ++ z, by simp, noNl_append hy hz⟩, he⟩

theorem errIn_delimited {p : PE α} {q : PE β} {t : PE γ} (h : ErrIn nfa p) (ho : OkIn p) (h2 : ErrIn nfa q) (ho2 : OkIn q)
    (h3 : ErrIn nfa t) : ErrIn nfa (delimited p q t) := errIn_map (errIn_pair h ho (errIn_map (errIn_pair h2 ho2 h3)))

theorem errIn_opt {p : PE α} : ErrIn nfa (opt p) := by
  intro s e hs
  unfold opt at hs
  cases h : p s <;> rw [h] at hs <;> cases hs

theorem errIn_space0 : ErrIn nfa space0 := by intro s e hs; cases hs

/-- An error at the beginning. -/
theorem errIn_here {p : PE α} (h : ∀ s e, p s = .err e → e.input = s ∧ TableText.Expected nfa e.code s) : ErrIn nfa p := by
  intro s e hs
  obtain ⟨h1, h2⟩ := h s e hs
  exact ⟨⟨[], by simp [h1], by simp⟩, h1 ▸ h2⟩

theorem takeTill1_err {k : ErrorKind} {f : Char → Bool} {s : Str} {e : NomError} (h : takeTill1 k f s = .err e) :
    e = ⟨s, k⟩ ∧ ∀ c ∈ s.head?, f c = true := by
  unfold takeTill1 at h
  split at h
  · rename_i h1
    cases h
    refine ⟨rfl, ?_⟩
    intro c hc
    cases s with
    | nil => cases hc
    | cons d s =>
      cases hc
      cases hf : f c with
      | true => rfl
      | false => simp [hf] at h1
  · cases h

theorem errIn_space1 : ErrIn nfa space1 := by
  refine errIn_here ?_
  intro s e h
  obtain ⟨rfl, h1⟩ := takeTill1_err h
  refine ⟨rfl, ?_⟩
  intro c hc
  have := h1 c hc
  simp only [Bool.not_eq_true'] at this
  constructor <;> rintro rfl <;> revert this <;> decide

theorem endsName_true {c : Char} (h : Fa.endsName c = true) : isWhitespace c = true ∨ c = '#' ∨ c = '{' ∨ c = '}' := by
  unfold Fa.endsName at h
  simpa using h

end PE

namespace FaE
open PE

theorem stateName_erases : Erases stateName Fa.stateName := verify_erases (takeTill1_erases _ _) _
theorem alphabetElem_erases : Erases alphabetElem Fa.alphabetElem := verify_erases (takeTill1_erases _ _) _
theorem eps_erases : Erases eps Fa.eps := map_erases (alt_erases (tag_erases _) (tag_erases _))
theorem stateSet_erases : Erases stateSet Fa.stateSet :=
  delimited_erases (tag_erases _) (delimited_erases space0_erases (separatedList0_erases space1_erases stateName_erases) space0_erases)
    (tag_erases _)
theorem accepting_erases : Erases accepting Fa.accepting := value_erases (tag_erases _)
theorem arrow_erases : Erases arrow Fa.arrow := map_erases (alt_erases (tag_erases _) (tag_erases _))
theorem comment_erases : Erases comment Fa.comment := value_erases (pair_erases (tag_erases _) notLineEnding_erases)
theorem spaceComment_erases : Erases spaceComment Fa.spaceComment := value_erases (pair_erases space0_erases (opt_erases comment_erases))
theorem spaceCommentLine_erases : Erases spaceCommentLine Fa.spaceCommentLine :=
  value_erases (verify_erases (recognize_erases (terminated_erases spaceComment_erases (alt_erases lineEnding_erases eof_erases))) _)
theorem faHead_erases {α : Type} {item : PE α} {item' : P α} (h : Erases item item') : Erases (faHead item) (Fa.faHead item') :=
  delimited_erases space0_erases (separatedList1_erases space1_erases h) spaceComment_erases
theorem nfaHeadItem_erases : Erases nfaHeadItem Fa.nfaHeadItem := alt_erases (map_erases alphabetElem_erases) (value_erases eps_erases)
theorem faLine_erases {τ : Type} {entry : PE τ} {entry' : P τ} (h : Erases entry entry') : Erases (faLine entry) (Fa.faLine entry') :=
  delimited_erases space0_erases
    (pair_erases (pair_erases (opt_erases (terminated_erases arrow_erases space1_erases))
      (opt_erases (terminated_erases accepting_erases space1_erases)))
      (pair_erases (terminated_erases stateName_erases space1_erases) (separatedList1_erases space1_erases h))) spaceComment_erases
theorem dfaLine_erases : Erases dfaLine Fa.dfaLine := map_erases (faLine_erases stateName_erases)
theorem nfaLine_erases : Erases nfaLine Fa.nfaLine := map_erases (faLine_erases stateSet_erases)
theorem fullFa_erases {α σ : Type} {head : PE (List α)} {head' : P (List α)} {line : PE σ} {line' : P σ} (h : Erases head head')
    (hl : Erases line line') : Erases (fullFa head line) (Fa.fullFa head' line') :=
  delimited_erases (many0_erases spaceCommentLine_erases)
    (pair_erases (terminated_erases h lineEnding_erases) (preceded_erases (many0_erases spaceCommentLine_erases)
      (separatedList1_erases (many1_erases spaceCommentLine_erases) hl))) (many0_erases spaceCommentLine_erases)

theorem okIn_name : OkIn stateName := okIn_verify (okIn_takeTill1 (by decide))

theorem okIn_arrow : OkIn arrow := okIn_map (okIn_alt (okIn_tag (by decide)) (okIn_tag (by decide)))

theorem okIn_accepting : OkIn accepting := okIn_map (okIn_tag (by decide))

theorem okIn_spaceComment : OkIn spaceComment :=
  okIn_map (okIn_pair okIn_space0 (okIn_opt (okIn_map (okIn_pair (okIn_tag (by decide)) okIn_notLineEnding))))

theorem errIn_spaceComment {nfa : Prop} : ErrIn nfa spaceComment := errIn_map (errIn_pair errIn_space0 okIn_space0 errIn_opt)

theorem errIn_name {nfa : Prop} : ErrIn nfa stateName := by
  refine errIn_here ?_
  intro s e h
  rcases verify_err.1 h with h1 | ⟨a, r, h1, h2, rfl⟩
  · obtain ⟨rfl, h2⟩ := takeTill1_err h1
    exact ⟨rfl, fun c hc => endsName_true (h2 c hc)⟩
  · refine ⟨rfl, ?_⟩
    obtain ⟨rfl, _, _, h3⟩ := takeTill1_some.1 ((erases_ok (takeTill1_erases _ _)).1 h1)
    refine ⟨a, r, rfl, ?_, fun c hc => endsName_true (h3 c hc)⟩
    simp only [Bool.not_eq_false', List.contains_iff_mem] at h2
    unfold Fa.reserved at h2
    simpa using h2

theorem errIn_tag {t : Str} : ErrIn True (tag t) := by
  refine errIn_here ?_
  intro s e h
  unfold tag at h
  split at h
  · cases h
  · cases h; exact ⟨rfl, trivial⟩

theorem errIn_alt_last {α : Type} {p q : PE α} (h : ErrIn True q) : ErrIn True (alt p q) := by
  intro s e hs
  unfold alt at hs
  cases h3 : p s with
  | err e' => rw [h3] at hs; exact h _ _ hs
  | ok b r' => rw [h3] at hs; cases hs

theorem errIn_headItem : ErrIn True nfaHeadItem := errIn_alt_last (errIn_map (errIn_map (errIn_alt_last errIn_tag)))

theorem okIn_headItem : OkIn nfaHeadItem :=
  okIn_alt (okIn_map okIn_name) (okIn_map (okIn_map (okIn_alt (okIn_tag (by decide)) (okIn_tag (by decide)))))

theorem okIn_set : OkIn stateSet :=
  okIn_delimited (okIn_tag (by decide)) (okIn_delimited okIn_space0 (okIn_separatedList0 okIn_space1 okIn_name) okIn_space0)
    (okIn_tag (by decide))

theorem errIn_set : ErrIn True stateSet := by
  refine errIn_delimited errIn_tag (okIn_tag (by decide)) (errIn_delimited errIn_space0 okIn_space0 ?_
    (okIn_separatedList0 okIn_space1 okIn_name) errIn_space0)
    (okIn_delimited okIn_space0 (okIn_separatedList0 okIn_space1 okIn_name) okIn_space0) errIn_tag
  intro s e h
  exact absurd h (separatedList0_no_err space1_erases stateName_erases space1_consumes stateName_consumes.shrinks s e)

section
variable {nfa : Prop} {α : Type} {item : PE α} {item' : P α}

theorem errIn_spaced (h : Erases item item') (hs : P.Shrinks item') (he : ErrIn nfa item) : ErrIn nfa (separatedList1 space1 item) :=
  fun s e hp => he s e ((separatedList1_err space1_erases h space1_consumes hs).1 hp)

theorem errIn_head (h : Erases item item') (hs : P.Shrinks item') (he : ErrIn nfa item) (ho : OkIn item) : ErrIn nfa (faHead item) :=
  errIn_delimited errIn_space0 okIn_space0 (errIn_spaced h hs he) (okIn_separatedList1 okIn_space1 ho) errIn_spaceComment

theorem okIn_head (ho : OkIn item) : OkIn (faHead item) := okIn_delimited okIn_space0 (okIn_separatedList1 okIn_space1 ho) okIn_spaceComment

theorem okIn_faLine (ho : OkIn item) : OkIn (faLine item) :=
  okIn_delimited okIn_space0
    (okIn_pair (okIn_pair (okIn_opt (okIn_map (okIn_pair okIn_arrow okIn_space1))) (okIn_opt (okIn_map (okIn_pair okIn_accepting okIn_space1))))
      (okIn_pair (okIn_map (okIn_pair okIn_name okIn_space1)) (okIn_separatedList1 okIn_space1 ho))) okIn_spaceComment

theorem errIn_faLine (h : Erases item item') (hs : P.Shrinks item') (he : ErrIn nfa item) (ho : OkIn item) : ErrIn nfa (faLine item) :=
  errIn_delimited errIn_space0 okIn_space0
    (errIn_pair (errIn_pair errIn_opt (okIn_opt (okIn_map (okIn_pair okIn_arrow okIn_space1))) errIn_opt)
      (okIn_pair (okIn_opt (okIn_map (okIn_pair okIn_arrow okIn_space1))) (okIn_opt (okIn_map (okIn_pair okIn_accepting okIn_space1))))
      (errIn_pair (errIn_map (errIn_pair errIn_name okIn_name errIn_space1)) (okIn_map (okIn_pair okIn_name okIn_space1))
        (errIn_spaced h hs he)))
    (okIn_pair (okIn_pair (okIn_opt (okIn_map (okIn_pair okIn_arrow okIn_space1))) (okIn_opt (okIn_map (okIn_pair okIn_accepting okIn_space1))))
      (okIn_pair (okIn_map (okIn_pair okIn_name okIn_space1)) (okIn_separatedList1 okIn_space1 ho))) errIn_spaceComment

end

/-! ## What is before the place of an error -/

/-- What is before the place of an error can be completed. -/
def ErrVia {α : Type} (p : PE α) (R : Str → Prop) : Prop := ∀ s e, p s = .err e → ∃ y, s = y ++ e.input ∧ TableText.Begins R y

section via
open TableText
variable {α : Type} {item : PE α} {item' : P α} {Item : α → Str → Prop}

theorem via_start {p : PE α} {R : Str → Prop} {w : Str} (hw : R w) (h : ∀ s e, p s = .err e → e.input = s) : ErrVia p R := by
  intro s e hs
  exact ⟨[], by rw [h s e hs]; rfl, w, hw⟩

theorem name_a : Name ['a'] := by
  refine ⟨by decide, ?_, by decide, by decide, by decide, by decide, by decide⟩
  intro c hc
  rw [List.mem_singleton] at hc
  subst hc
  exact ⟨by decide +kernel, by decide, by decide, by decide⟩

theorem tag_err {t s : Str} {e : NomError} (h : tag t s = .err e) : e.input = s := by
  unfold tag at h
  split at h
  · cases h
  · cases h; rfl

theorem name_err {s : Str} {e : NomError} (h : stateName s = .err e) : e.input = s := by
  rcases verify_err.1 h with h1 | ⟨a, r, h1, h2, rfl⟩
  · obtain ⟨rfl, _⟩ := takeTill1_err h1; rfl
  · rfl

theorem headItem_err {s : Str} {e : NomError} (h : nfaHeadItem s = .err e) : e.input = s := by
  unfold nfaHeadItem alt at h
  split at h
  · have h2 := map_err.1 (map_err.1 h)
    unfold alt at h2
    split at h2
    · exact tag_err h2
    · cases h2
  · cases h

theorem via_name : ErrVia stateName (fun u => ∃ a, NameItem a u) := via_start (w := ['a']) ⟨_, rfl, name_a⟩ fun _ _ => name_err

theorem via_headItem : ErrVia nfaHeadItem (fun u => ∃ a, HeadItem a u) :=
  via_start (w := ['a']) ⟨.element ['a'], rfl, name_a⟩ fun _ _ => headItem_err

theorem via_set : ErrVia stateSet (fun u => ∃ a, SetItem a u) := by
  intro s e h0
  rcases delimited_err.1 h0 with h | ⟨_, m, h1, h⟩ | ⟨_, m, ns, n, h1, h2, h⟩
  · exact ⟨[], by rw [tag_err h]; rfl, ['{', '}'], [], [], [], [], rfl, blanks_nil, blanks_nil, Or.inl ⟨rfl, rfl⟩⟩
  · exfalso
    rcases delimited_err.1 h with h | ⟨_, _, _, h⟩ | ⟨_, _, _, _, _, _, h⟩
    · cases h
    · exact separatedList0_no_err space1_erases stateName_erases space1_consumes stateName_consumes.shrinks _ e h
    · cases h
  · obtain ⟨_, rfl⟩ := tag_some.1 ((erases_ok (tag_erases _)).1 h1)
    obtain ⟨b, b', m1, m2, q1, q2, q3⟩ := P.delimited_some.1 ((erases_ok (delimited_erases space0_erases (separatedList0_erases space1_erases
      stateName_erases) space0_erases)).1 h2)
    obtain ⟨rfl, hb, _⟩ := space0_some.1 q1
    obtain ⟨rfl, hb', _⟩ := space0_some.1 q3
    have hin := tag_err h
    rcases separatedList0_iff.1 q2 with ⟨rfl, rfl, _⟩ | q2
    · exact ⟨['{'] ++ (b ++ b'), by simp [hin], ['}'], [], b, [], b', by simp, hb, hb', Or.inl ⟨rfl, rfl⟩⟩
    · obtain ⟨u, rfl, hu⟩ := spaced_sound stateName_sound stateName_consumes.shrinks _ _ _ q2
      exact ⟨['{'] ++ (b ++ (u ++ b')), by simp [hin], ['}'], ns, b, u, b', by simp, hb, hb', Or.inr hu⟩

theorem via_spaced (h : Erases item item') (hs : P.Shrinks item') (hv : ErrVia item (fun u => ∃ a, Item a u)) :
    ErrVia (separatedList1 space1 item) (fun u => ∃ as, Spaced Item as u) := by
  intro s e he
  obtain ⟨y, h1, z, a, h2⟩ := hv s e ((separatedList1_err space1_erases h space1_consumes hs).1 he)
  exact ⟨y, h1, z, [a], .one h2⟩

theorem spaceComment_no_err (s : Str) (e : NomError) : spaceComment s ≠ .err e := by
  intro h
  rcases pair_err.1 (map_err.1 h) with h | ⟨_, _, _, h⟩
  · cases h
  · unfold opt at h
    split at h <;> cases h

theorem opt_no_err {α : Type} {p : PE α} (s : Str) (e : NomError) : opt p s ≠ .err e := by
  intro h
  unfold opt at h
  split at h <;> cases h

theorem via_head (h : Erases item item') (hs : P.Shrinks item') (hv : ErrVia item (fun u => ∃ a, Item a u)) :
    ErrVia (faHead item) (fun u => ∃ hd, HeadLine Item hd u) := by
  intro s e he0
  rcases delimited_err.1 he0 with he | ⟨b, m, h1, he⟩ | ⟨_, _, _, _, _, _, he⟩
  · cases he
  · obtain ⟨rfl, hb, _⟩ := space0_some.1 ((erases_ok space0_erases).1 h1)
    obtain ⟨y, rfl, z, as, hz⟩ := via_spaced h hs hv _ _ he
    exact ⟨b ++ y, by simp, z, as, b, y ++ z, [], by simp, hb, hz, Or.inl blanks_nil⟩
  · exact absurd he (spaceComment_no_err _ _)

theorem blanks_one : Blanks [' '] := by intro c hc; simp at hc; simp [hc]

theorem via_faLine (h : Erases item item') (hs : P.Shrinks item') (hv : ErrVia item (fun u => ∃ a, Item a u)) (hex : ∃ a u, Item a u) :
    ErrVia (faLine item) (fun u => ∃ i a n es, RowLine Item i a n es u) := by
  intro s e he0
  rcases delimited_err.1 he0 with he | ⟨b, m, h1, he⟩ | ⟨_, _, _, _, _, _, he⟩
  · cases he
  rotate_left
  · exact absurd he (spaceComment_no_err _ _)
  obtain ⟨rfl, hb, _⟩ := space0_some.1 ((erases_ok space0_erases).1 h1)
  rcases pair_err.1 he with he | ⟨⟨o1, o2⟩, m1, h2, he2⟩
  · rcases pair_err.1 he with he | ⟨_, _, _, he⟩
    · exact absurd he (opt_no_err _ _)
    · exact absurd he (opt_no_err _ _)
  obtain ⟨m2, h3, h4⟩ := pair_ok.1 h2
  obtain ⟨i, rfl, hi⟩ := mark_sound (fun s r x => arrow_some) _ _ _ ((erases_ok (opt_erases (terminated_erases arrow_erases
    space1_erases))).1 h3)
  obtain ⟨a, rfl, ha⟩ := mark_sound (fun s r x => accepting_some) _ _ _ ((erases_ok (opt_erases (terminated_erases accepting_erases
    space1_erases))).1 h4)
  obtain ⟨x, w, hx⟩ := hex
  have line : ∀ n b' u l es, Name n → Blanks b' → b' ≠ [] → Spaced Item es u → Tail l →
      RowLine Item o1.isSome o2.isSome n es (b ++ i ++ a ++ n ++ b' ++ u ++ l) := fun n b' u l es h5 h6 h7 h8 h9 =>
    ⟨b, i, a, n, b', u, l, rfl, hb, hi, ha, ⟨rfl, h5⟩, h6, h7, h8, h9⟩
  rcases pair_err.1 he2 with he | ⟨n, m3, h5, he3⟩
  · rcases terminated_err.1 he with he | ⟨n, m3, h5, he4⟩
    · have := name_err he
      refine ⟨b ++ i ++ a, by simp [this], ['a'] ++ [' '] ++ w, o1.isSome, o2.isSome, ['a'], [x], ?_⟩
      have h6 := line ['a'] [' '] w [] [x] name_a blanks_one (by decide) (.one hx) (Or.inl blanks_nil)
      simpa using h6
    · obtain ⟨rfl, hn, _⟩ := stateName_some.1 ((erases_ok stateName_erases).1 h5)
      obtain ⟨rfl, _⟩ := takeTill1_err he4
      refine ⟨b ++ i ++ a ++ n, by simp, [' '] ++ w, o1.isSome, o2.isSome, n, [x], ?_⟩
      have h6 := line n [' '] w [] [x] hn blanks_one (by decide) (.one hx) (Or.inl blanks_nil)
      simpa using h6
  · obtain ⟨b', m4, h6, h7⟩ := P.terminated_some.1 ((erases_ok (terminated_erases stateName_erases space1_erases)).1 h5)
    obtain ⟨rfl, hn, _⟩ := stateName_some.1 h6
    obtain ⟨rfl, hb1, hb', _⟩ := space1_some.1 h7
    obtain ⟨y, rfl, z, es, hz⟩ := via_spaced h hs hv _ _ he3
    refine ⟨b ++ i ++ a ++ n ++ b' ++ y, by simp, z, o1.isSome, o2.isSome, n, es, ?_⟩
    have h8 := line n b' (y ++ z) [] es hn hb' hb1 hz (Or.inl blanks_nil)
    simpa using h8

theorem via_dfaLine : ErrVia dfaLine (fun u => ∃ s, DfaRow s u) := by
  intro s e h
  obtain ⟨y, h1, z, i, a, n, es, h2⟩ := via_faLine stateName_erases stateName_consumes.shrinks via_name ⟨_, _, rfl, name_a⟩ s e (map_err.1 h)
  exact ⟨y, h1, z, ⟨n, i, a, es⟩, h2⟩

theorem via_nfaLine : ErrVia nfaLine (fun u => ∃ s, NfaRow s u) := by
  intro s e h
  obtain ⟨y, h1, z, i, a, n, es, h2⟩ := via_faLine stateSet_erases stateSet_consumes.shrinks via_set
    ⟨[], ['{', '}'], [], [], [], rfl, blanks_nil, blanks_nil, Or.inl ⟨rfl, rfl⟩⟩ s e (map_err.1 h)
  exact ⟨y, h1, z, ⟨n, i, a, es⟩, h2⟩

end via

/-! ## The whole text -/

section full
open TableText Fa
variable {nfa : Prop} {α σ : Type} {item : PE α} {item' : P α} {Item : α → Str → Prop} {line : PE σ} {line' : P σ} {Row : σ → Str → Prop}

theorem noLine_of_none (hl : GoodLine line' Row) {t : Str} (h : line' t = none) : NoLine (fun u => ∃ s, Row s u) t := by
  rintro l r rfl hr ⟨s, hs⟩
  rw [hl.complete s l r hs hr] at h
  cases h

theorem noTail_of_none {t : Str} (hne : t ≠ []) (h : Fa.spaceCommentLine t = none) : NoLine Tail t := by
  rintro l r rfl hr hl
  rcases hr with rfl | ⟨e, r', he, rfl⟩
  · rw [List.append_nil] at h hne
    rw [scl_eof hl hne] at h
    cases h
  · rw [← List.append_assoc, scl_complete hl he] at h
    cases h

theorem blanks_noNl {b : Str} (h : Blanks b) : '\n' ∉ b := by
  intro hm; rcases h _ hm with h | h <;> revert h <;> decide

/-- A skipped text ends with a line feed, if it is not empty. -/
theorem skip_last {k : Str} (h : Skip k) (hne : k ≠ []) : k.getLast? = some '\n' := by
  induction h with
  | nil => exact absurd rfl hne
  | @cons l e k hl he hk ih =>
    by_cases hk' : k = []
    · subst hk'
      rcases he with rfl | rfl <;> simp
    · rw [List.getLast?_append, ih hk']; rfl

/-- The lines of states end without a line feed. -/
theorem rows_last (hn : ∀ s u, Row s u → '\n' ∉ u ∧ u ≠ []) {as : List σ} {t : Str} (h : Rows Row as t) : t ≠ [] ∧ t.getLast? ≠ some '\n' := by
  induction h with
  | one hr =>
    obtain ⟨h1, h2⟩ := hn _ _ hr
    refine ⟨h2, fun h3 => h1 (List.mem_of_getLast? h3)⟩
  | cons _ _ _ _ ih =>
    obtain ⟨h1, h2⟩ := ih
    refine ⟨by simp [h1], ?_⟩
    rw [List.getLast?_append]
    cases hl : List.getLast? _ with
    | none => exact absurd (List.getLast?_eq_none_iff.1 hl) h1
    | some c => rw [hl] at h2; simpa using h2

theorem tail_noNl {l : Str} (h : Tail l) : '\n' ∉ l := by
  rcases h with h | ⟨b, c, rfl, hb, hc, _⟩
  · exact blanks_noNl h
  · simp [blanks_noNl hb, hc]

theorem lineEnding_err {s : Str} {e : NomError} (h : PE.lineEnding s = .err e) : e = ⟨s, .crLf⟩ ∧ P.lineEnding s = none := by
  have h2 : P.lineEnding s = none := by rw [← lineEnding_erases s, h]; rfl
  refine ⟨?_, h2⟩
  unfold PE.lineEnding at h
  repeat' (split at h)
  all_goals first | (cases h; rfl) | cases h

theorem allConsuming_error {p : PE α} {s : Str} {e : NomError} :
    allConsuming p s = .error e ↔ p s = .err e ∨ ∃ a, p s = .ok a e.input ∧ e.input ≠ [] ∧ e.code = .eof := by
  unfold allConsuming
  cases h : p s with
  | err e' => simp
  | ok a r =>
    cases r with
    | nil =>
      simp only [List.isEmpty_nil, ↓reduceIte, reduceCtorEq, Res.ok.injEq, false_or, false_iff]
      rintro ⟨_, ⟨_, h2⟩, h3, _⟩
      exact h3 h2.symm
    | cons c r =>
      obtain ⟨i, k⟩ := e
      simp only [List.isEmpty_cons, Bool.false_eq_true, ↓reduceIte, Except.error.injEq, NomError.mk.injEq, reduceCtorEq, Res.ok.injEq,
        false_or]
      constructor
      · rintro ⟨rfl, rfl⟩; exact ⟨a, ⟨rfl, rfl⟩, by simp, rfl⟩
      · rintro ⟨_, ⟨rfl, rfl⟩, _, rfl⟩; exact ⟨rfl, rfl⟩

theorem allConsuming_map_error {β : Type} {f : α → β} {p : PE α} {s : Str} {e : NomError} :
    allConsuming (PE.map f p) s = .error e ↔ allConsuming p s = .error e := by
  rw [allConsuming_error, allConsuming_error, map_err]
  refine or_congr Iff.rfl ⟨?_, ?_⟩
  · rintro ⟨b, h, h2⟩
    obtain ⟨a, h3, _⟩ := map_ok.1 h
    exact ⟨a, h3, h2⟩
  · rintro ⟨a, h, h2⟩
    exact ⟨f a, map_ok.2 ⟨a, h, rfl⟩, h2⟩

theorem allConsuming_erases {p : PE α} {q : P α} (h : Erases p q) {s : Str} {a : α} :
    allConsuming p s = .ok a ↔ P.allConsuming q s = some a := by
  rw [P.allConsuming_some, ← erases_ok h]
  unfold allConsuming
  cases p s with
  | err e => simp
  | ok b r => cases r <;> simp

/-- The error of a text which is no table. -/
theorem full_first (h1 : Sound item' Item) (h2 : Complete item' Item Stop) (h3 : P.Shrinks item') (h4 : ∀ a t, Item a t → TokStarts t)
    (hl : GoodLine line' Row) (hi : Erases item item') (hle : Erases line line') (ei : ErrIn nfa item) (oi : OkIn item) (el : ErrIn nfa line)
    (ol : OkIn line) (vi : ErrVia item (fun u => ∃ a, Item a u)) (vl : ErrVia line (fun u => ∃ a, Row a u)) {s : Str} {e : NomError} (h : allConsuming (fullFa (faHead item) line) s = .error e) : FirstError nfa Item Row s e := by
  have eh := errIn_head hi h3 ei oi
  have oh := okIn_head oi
  have hnl : ∀ a u, Row a u → '\n' ∉ u ∧ u ≠ [] := by
    intro a u hu
    refine ⟨?_, hl.ne_nil hu⟩
    have := hl.complete a u [] hu (Or.inl rfl)
    obtain ⟨y, hy, hy2⟩ := ol _ _ _ ((erases_ok hle).2 this)
    rw [List.append_nil, List.append_nil] at hy
    rwa [hy]
  rcases allConsuming_error.1 h with h | ⟨⟨hd, sts⟩, h, hne, hc⟩
  · rcases delimited_err.1 h with h | ⟨us, m, p1, h⟩ | ⟨_, _, _, _, _, _, h⟩
    · exact absurd h (many0_no_err spaceCommentLine_erases scl_consumes s e)
    rotate_left
    · exact absurd h (many0_no_err spaceCommentLine_erases scl_consumes _ e)
    have p1' := (erases_ok (many0_erases spaceCommentLine_erases)).1 p1
    -- the first line
    have nohead : ∀ {y r}, m = y ++ r → (∀ hd m1, P.lineEnding m1 = none ∨ Fa.faHead item' m ≠ some (hd, m1)) → NoHead Item m := by
      rintro y r - hno h e' r' hd hs hh he
      have := faHead_complete h1 h2 h3 h4 hd h (e' ++ r') hh (Or.inr ⟨e', r', he, rfl⟩)
      rw [← List.append_assoc, ← hs] at this
      rcases hno hd (e' ++ r') with h5 | h5
      · rw [lineEnding_some.2 ⟨he, rfl⟩] at h5; cases h5
      · exact h5 this
    have headErr : ∀ {y}, m = y ++ e.input → '\n' ∉ y → Begins (fun u => ∃ hd, HeadLine Item hd u) y → Expected nfa e.code e.input →
        (∀ hd m1, P.lineEnding m1 = none ∨ Fa.faHead item' m ≠ some (hd, m1)) → FirstError nfa Item Row s e := by
      intro y hy hn hbg hex hno
      rcases many0_scl_sound p1' with ⟨k, hk, rfl⟩ | ⟨rfl, k, l, hk, htl, hlne, rfl⟩
      · refine .head k y (by rw [hy, List.append_assoc]) hk hn hbg ?_ hex
        rw [← hy]; exact nohead hy hno
      · obtain ⟨rfl, he⟩ := List.append_eq_nil_iff.1 hy.symm
        exact .missing k l rfl he htl hlne (Or.inl hk) (he ▸ hex)
    rcases pair_err.1 h with h | ⟨hd, m1, p2, h0⟩
    · rcases terminated_err.1 h with h | ⟨hd, m1, p2, h⟩
      · obtain ⟨⟨y, hy, hn⟩, hex⟩ := eh _ _ h
        obtain ⟨y', hy', hbg⟩ := via_head hi h3 vi _ _ h
        obtain rfl := List.append_cancel_right (hy.symm.trans hy')
        refine headErr hy hn hbg hex ?_
        intro hd m1
        right
        rw [← faHead_erases hi m, h]; simp [toOption_err]
      · obtain ⟨y, hy, hn⟩ := oh _ _ _ p2
        obtain ⟨rfl, hno⟩ := lineEnding_err h
        obtain ⟨hh, hy', p10⟩ := faHead_sound h1 h3 _ _ _ ((erases_ok (faHead_erases hi)).1 p2)
        obtain rfl := List.append_cancel_right (hy.symm.trans hy')
        refine headErr hy hn ⟨[], hd, by rw [List.append_nil]; exact p10⟩ ?_ ?_
        · rintro e' r' rfl he
          rw [lineEnding_some.2 ⟨he, rfl⟩] at hno; cases hno
        · intro hd' m2
          by_cases hm : m2 = m1
          · left; rw [hm]; exact hno
          · right
            rw [(erases_ok (faHead_erases hi)).1 p2]
            simp only [ne_eq, Option.some.injEq, Prod.mk.injEq, not_and]
            exact fun _ h => hm h.symm
    -- the first line of a state
    obtain ⟨ee, m2, p6, p7⟩ := P.terminated_some.1 ((erases_ok (terminated_erases (faHead_erases hi) lineEnding_erases)).1 p2)
    obtain ⟨he, rfl⟩ := lineEnding_some.1 p7
    obtain ⟨hh, rfl, p10⟩ := faHead_sound h1 h3 _ _ _ p6
    have hm : hh ++ (ee ++ m1) ≠ [] := by rcases he with rfl | rfl <;> simp
    obtain ⟨k, hk, rfl⟩ : ∃ k, Skip k ∧ s = k ++ (hh ++ (ee ++ m1)) := by
      rcases many0_scl_sound p1' with h | ⟨hn, _⟩
      · exact h
      · exact absurd hn hm
    rcases preceded_err.1 h0 with h | ⟨ws, m3, p8, h⟩
    · exact absurd h (many0_no_err spaceCommentLine_erases scl_consumes _ e)
    have herr := (separatedList1_err (many1_erases spaceCommentLine_erases) hle (P.many1_consumes scl_consumes) hl.consumes.shrinks).1 h
    obtain ⟨⟨y, hy, hn⟩, hex⟩ := el _ _ herr
    have hno : line' m3 = none := by rw [← hle m3, herr]; rfl
    rcases many0_scl_sound ((erases_ok (many0_erases spaceCommentLine_erases)).1 p8) with ⟨k', hk', rfl⟩ | ⟨rfl, k', l, hk', htl, hlne, rfl⟩
    · obtain ⟨y', hy', hbg⟩ := vl _ _ herr
      obtain rfl := List.append_cancel_right (hy.symm.trans hy')
      refine .firstRow k hh ee k' y hd (by rw [hy]; simp) hk p10 he hk' hn hbg ?_ hex
      rw [← hy]; exact noLine_of_none hl hno
    · obtain ⟨rfl, he'⟩ := List.append_eq_nil_iff.1 hy.symm
      exact .missing (k ++ hh ++ ee ++ k') l (by simp) he' htl hlne (Or.inr ⟨k, hh, ee, k', hd, rfl, hk, p10, he, hk'⟩) (he' ▸ hex)
  -- after the table
  · obtain ⟨us, vs, m, n, p1, p2, p3⟩ := P.delimited_some.1 ((erases_ok (fullFa_erases (faHead_erases hi) hle)).1 h)
    obtain ⟨m1, p4, p5⟩ := P.pair_some.1 p2
    obtain ⟨ee, m2, p6, p7⟩ := P.terminated_some.1 p4
    obtain ⟨he, rfl⟩ := lineEnding_some.1 p7
    obtain ⟨ws, m3, p8, p9⟩ := P.preceded_some.1 p5
    obtain ⟨hh, rfl, p10⟩ := faHead_sound h1 h3 _ _ _ p6
    obtain ⟨r, rfl, p11⟩ := rows_sound hl _ _ _ p9
    obtain ⟨_, _, _, _, _, _, p12⟩ := (P.separatedList1_iff (P.many1_consumes scl_consumes) hl.consumes.shrinks).1 p9
    obtain ⟨p13, p14⟩ := (P.many0_iff scl_consumes).1 p3
    obtain ⟨k'', hk'', rfl⟩ : ∃ k, Skip k ∧ n = k ++ e.input := by
      rcases many0_scl_sound p3 with h | ⟨hn, _⟩
      · exact h
      · exact absurd hn hne
    obtain ⟨k', hk', rfl⟩ : ∃ k, Skip k ∧ m1 = k ++ (r ++ (k'' ++ e.input)) := by
      rcases many0_scl_sound p8 with h | ⟨hn, _⟩
      · exact h
      · simp [hne] at hn
    obtain ⟨k, hk, rfl⟩ : ∃ k, Skip k ∧ s = k ++ (hh ++ (ee ++ (k' ++ (r ++ (k'' ++ e.input))))) := by
      rcases many0_scl_sound p1 with h | ⟨hn, _⟩
      · exact h
      · simp [hne] at hn
    refine .later (k ++ hh ++ ee ++ k' ++ r ++ k'') hd sts (by simp) hne hc ?_ (noTail_of_none hne p14) ?_
    · cases hk'' with
      | nil => exact ⟨k, hh, ee, k', r, [], by simp, hk, p10, he, hk', p11, Or.inl rfl⟩
      | @cons l e' k3 hl' he' hk3 =>
        exact ⟨k, hh, ee, k', r ++ l, e' ++ k3 ++ [], by simp, hk, p10, he, hk', rows_tail hl p11 hl',
          Or.inr ⟨e', k3, [], rfl, he', hk3, Or.inl blanks_nil⟩⟩
    · intro hlast
      refine noLine_of_none hl ?_
      have hvs : vs ≠ [] := by
        rintro rfl
        have hk0 : k'' = [] := by
          generalize hx : k'' ++ e.input = x at p13
          generalize hy : e.input = y at p13 hx
          cases p13
          simpa using hx
        obtain ⟨r1, r2⟩ := rows_last hnl p11
        rw [hk0, List.append_nil, List.getLast?_append] at hlast
        cases hl0 : r.getLast? with
        | none => exact r1 (List.getLast?_eq_none_iff.1 hl0)
        | some c => rw [hl0] at hlast r2; exact r2 (by simpa using hlast)
      have hm := (P.many1_iff scl_consumes).2 ⟨hvs, p13, p14⟩
      cases hp : line' e.input with
      | none => rfl
      | some x => rw [P.preceded_some.2 ⟨vs, e.input, hm, hp⟩] at p12; cases p12

end full

open TableText in
theorem dfa_error {t : Str} {e : NomError} (h : dfa t = .error e) : FirstError False NameItem DfaRow t e :=
  full_first stateName_sound stateName_complete stateName_consumes.shrinks (fun _ _ => nameItem_starts) dfaLine_good stateName_erases
    dfaLine_erases errIn_name okIn_name (errIn_map (errIn_faLine stateName_erases stateName_consumes.shrinks errIn_name okIn_name))
    (okIn_map (okIn_faLine okIn_name)) via_name via_dfaLine (allConsuming_map_error.1 h)

open TableText in
theorem nfa_error {t : Str} {e : NomError} (h : nfa t = .error e) : FirstError True HeadItem NfaRow t e :=
  full_first nfaHeadItem_sound nfaHeadItem_complete nfaHeadItem_shrinks (fun _ _ h => (headItem_starts h).starts) nfaLine_good
    nfaHeadItem_erases nfaLine_erases errIn_headItem okIn_headItem
    (errIn_map (errIn_faLine stateSet_erases stateSet_consumes.shrinks errIn_set okIn_set)) (okIn_map (okIn_faLine okIn_set))
    via_headItem via_nfaLine (allConsuming_map_error.1 h)

theorem dfa_ok {t : Str} {p : ParsedDfa} : dfa t = .ok p ↔ Fa.dfa t = some p :=
  allConsuming_erases (map_erases (fullFa_erases (faHead_erases alphabetElem_erases) dfaLine_erases))

theorem nfa_ok {t : Str} {p : ParsedNfa} : nfa t = .ok p ↔ Fa.nfa t = some p :=
  allConsuming_erases (map_erases (fullFa_erases (faHead_erases nfaHeadItem_erases) nfaLine_erases))

end FaE
end Dandy
