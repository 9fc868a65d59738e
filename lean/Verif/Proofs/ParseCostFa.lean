import Verif.Proofs.ParseCost
import Mathlib.Tactic.Ring
/-! # The work done by the parsers of tables: lemmas -/

namespace Dandy
open P TableText

namespace PC
variable {α β γ : Type}

/-- The length of the first line, without its end. -/
def lineLen (s : Str) : Nat := (s.takeWhile (fun c => !(c == '\n'))).length

theorem lineLen_le (s : Str) : lineLen s ≤ s.length := (List.takeWhile_prefix _).length_le

theorem lineLen_append {u r : Str} (h : '\n' ∉ u) : lineLen (u ++ r) = u.length + lineLen r := by
  unfold lineLen
  rw [List.takeWhile_append_of_pos (by intro c hc; simp; rintro rfl; exact h hc), List.length_append]

theorem lineLen_eol {u r : Str} (h : '\n' ∉ u) : lineLen (u ++ '\n' :: r) = u.length := by
  rw [lineLen_append h]
  simp [lineLen]

/-- A parser that stays in the line and takes at most `A` steps for each character of it, and `C` more. -/
structure Line (p : PC α) (A C : Nat) : Prop where
  inl : ∀ s a r, p.run s = some (a, r) → ∃ u, s = u ++ r ∧ '\n' ∉ u
  cost : ∀ s, p.cost s ≤ A * lineLen s + C

theorem Line.rest {p : PC α} {A C : Nat} (h : Line p A C) {s r : Str} {a : α} (hs : p.run s = some (a, r)) :
    lineLen r + s.length = lineLen s + r.length ∧ r.length ≤ s.length := by
  obtain ⟨u, rfl, hu⟩ := h.inl s a r hs
  rw [lineLen_append hu, List.length_append]
  omega

theorem Line.map {p : PC α} {A C : Nat} (h : Line p A C) (f : α → β) : Line (map f p) A (C + 1) where
  inl s b r hs := by
    obtain ⟨a, h1, _⟩ := map_some.1 hs
    exact h.inl s a r h1
  cost s := by
    have := h.cost s
    change 1 + p.cost s ≤ _
    omega

theorem Line.value {p : PC α} {A C : Nat} (h : Line p A C) (b : β) : Line (value b p) A (C + 1) := h.map _

theorem Line.pair {p : PC α} {q : PC β} {A C A' C' : Nat} (h : Line p A C) (h' : Line q A' C') : Line (pair p q) (A + A') (C + C' + 1) where
  inl s x r hs := by
    obtain ⟨m, h1, h2⟩ := pair_some.1 hs
    obtain ⟨u, rfl, hu⟩ := h.inl _ _ _ h1
    obtain ⟨v, rfl, hv⟩ := h'.inl _ _ _ h2
    exact ⟨u ++ v, by simp, by simp [hu, hv]⟩
  cost s := by
    have h1 := h.cost s
    change 1 + p.cost s + after (p.run s) (fun _ r => q.cost r) ≤ _
    rw [Nat.add_mul]
    cases h2 : p.run s with
    | none => simp only [after_none]; omega
    | some x =>
      obtain ⟨a, m⟩ := x
      have h3 := h'.cost m
      have h4 := h.rest h2
      have h5 : A' * lineLen m ≤ A' * lineLen s := Nat.mul_le_mul_left _ (by omega)
      simp only [after_some]
      omega

theorem Line.preceded {p : PC α} {q : PC β} {A C A' C' : Nat} (h : Line p A C) (h' : Line q A' C') :
    Line (preceded p q) (A + A') (C + C' + 2) := (h.pair h').map _

theorem Line.terminated {p : PC α} {q : PC β} {A C A' C' : Nat} (h : Line p A C) (h' : Line q A' C') :
    Line (terminated p q) (A + A') (C + C' + 2) := (h.pair h').map _

theorem Line.delimited {p : PC α} {q : PC β} {t : PC γ} {A C A' C' A'' C'' : Nat} (h : Line p A C) (h' : Line q A' C') (h'' : Line t A'' C'') :
    Line (delimited p q t) (A + (A' + A'')) (C + (C' + C'' + 2) + 2) := h.preceded (h'.terminated h'')

theorem Line.alt {p q : PC α} {A C A' C' : Nat} (h : Line p A C) (h' : Line q A' C') : Line (alt p q) (A + A') (C + C' + 1) where
  inl s x r hs := by
    rcases alt_some.1 hs with h1 | ⟨_, h1⟩
    · exact h.inl _ _ _ h1
    · exact h'.inl _ _ _ h1
  cost s := by
    have := alt_cost_le p q s
    have h1 := h.cost s
    have h2 := h'.cost s
    rw [Nat.add_mul]
    omega

theorem Line.opt {p : PC α} {A C : Nat} (h : Line p A C) : Line (opt p) A (C + 1) where
  inl s b r hs := by
    rcases opt_some.1 hs with ⟨a, _, h1⟩ | ⟨_, rfl, _⟩
    · exact h.inl s a r h1
    · exact ⟨[], rfl, by simp⟩
  cost s := by
    have := h.cost s
    change 1 + p.cost s ≤ _
    omega

theorem Line.verify {p : PC α} {A C : Nat} (h : Line p A C) (f : α → Bool) : Line (verify p f) A (C + 1) where
  inl s b r hs := h.inl s b r (verify_some.1 hs).1
  cost s := by
    have := h.cost s
    change 1 + p.cost s ≤ _
    omega

theorem Line.mono {p : PC α} {A C A' C' : Nat} (h : Line p A C) (hA : A ≤ A') (hC : C ≤ C') : Line p A' C' where
  inl := h.inl
  cost s := by
    have := h.cost s
    have := Nat.mul_le_mul_right (lineLen s) hA
    omega

theorem tag_line {t : Str} (h : '\n' ∉ t) : Line (tag t) 0 1 where
  inl s a r hs := by
    obtain ⟨rfl, rfl⟩ := tag_some.1 hs
    exact ⟨_, rfl, h⟩
  cost s := by change 1 ≤ _; omega

theorem scan_le {f : Char → Bool} (h : f '\n' = true) : ∀ s, scan f s ≤ lineLen s + 2 := by
  intro s
  unfold scan lineLen
  suffices ∀ s : Str, (s.takeWhile (fun c => !f c)).length ≤ (s.takeWhile (fun c => !(c == '\n'))).length by have := this s; omega
  intro s
  induction s with
  | nil => simp
  | cons c s ih =>
    by_cases hc : c = '\n'
    · subst hc; simp [h]
    · cases hf : f c with
      | true => simp [hf]
      | false => simp [hf, hc, ih]

theorem takeTill1_line {f : Char → Bool} (h : f '\n' = true) : Line (takeTill1 f) 1 2 where
  inl s a r hs := by
    obtain ⟨rfl, _, h1, _⟩ := takeTill1_some.1 hs
    refine ⟨a, rfl, fun hm => ?_⟩
    rw [h1 _ hm] at h
    cases h
  cost s := by have := scan_le h s; change scan f s ≤ _; omega

theorem space1_line : Line space1 1 2 := takeTill1_line (by decide)

theorem space0_line : Line space0 1 2 where
  inl s a r hs := by
    obtain ⟨rfl, h1, _⟩ := space0_some.1 hs
    refine ⟨a, rfl, fun hm => ?_⟩
    rcases h1 _ hm with h | h <;> exact absurd h (by decide)
  cost s := by have := scan_le (f := fun c => !isBlank c) (by decide) s; change scan _ s ≤ _; omega

theorem notLineEnding_line : Line notLineEnding 1 4 where
  inl s a r hs := by
    obtain ⟨h1, h2, _⟩ := notLineEnding_sound hs
    exact ⟨a, h1, h2⟩
  cost s := by have := scan_le (f := fun c => c == '\n' || c == '\r') (by decide) s; change 2 + scan _ s ≤ _; omega

/-- A list of entries in a line. -/
theorem sepCost_line {sep : PC β} {p : PC α} {A A1 C1 A2 C2 : Nat} (hs : Line sep A1 C1) (hp : Line p A2 C2) (hA : A1 + A2 ≤ A)
    (h : ∀ s b m a r, sep.run s = some (b, m) → p.run m = some (a, r) → 1 + sep.cost s + p.cost m + A * r.length ≤ A * s.length) :
    ∀ (fuel : Nat) (s : Str), sepCost sep p fuel s ≤ A * lineLen s + (1 + C1 + C2)
  | 0, s => Nat.zero_le _
  | fuel + 1, s => by
    rw [sepCost]
    have h1 := hs.cost s
    have h0 := Nat.mul_le_mul_right (lineLen s) hA
    rw [Nat.add_mul] at h0
    cases h2 : sep.run s with
    | none => simp only [after_none]; omega
    | some x =>
      obtain ⟨b, m⟩ := x
      have h3 := hs.rest h2
      have h4 := hp.cost m
      have h5 : A2 * lineLen m ≤ A2 * lineLen s := Nat.mul_le_mul_left _ (by omega)
      simp only [after_some]
      split
      · omega
      · cases h6 : p.run m with
        | none => simp only [after_none]; omega
        | some y =>
          obtain ⟨a, r⟩ := y
          have h7 := hp.rest h6
          have h8 := h s b m a r h2 h6
          have h9 := sepCost_line hs hp hA h fuel r
          simp only [after_some]
          have h10 : A * lineLen s + A * r.length = A * lineLen r + A * s.length := by
            rw [← Nat.mul_add, ← Nat.mul_add]; congr 1; omega
          omega

theorem sepChain_line {p : P α} (h : ∀ s a r, p s = some (a, r) → ∃ u, s = u ++ r ∧ '\n' ∉ u) {s r : Str} {as : List α} (hc : Chain p s as r) :
    ∃ u, s = u ++ r ∧ '\n' ∉ u := by
  induction hc with
  | nil => exact ⟨[], rfl, by simp⟩
  | cons h1 _ ih =>
    obtain ⟨u, rfl, hu⟩ := h _ _ _ h1
    obtain ⟨v, rfl, hv⟩ := ih
    exact ⟨u ++ v, by simp, by simp [hu, hv]⟩

theorem Line.shrinks {p : PC α} {A C : Nat} (h : Line p A C) : Shrinks p.run := fun _ _ _ hs => (h.rest hs).2

theorem separatedList1_line {sep : PC β} {p : PC α} {A A1 C1 A2 C2 : Nat} (hs : Line sep A1 C1) (hp : Line p A2 C2) (hA : A1 + A2 ≤ A)
    (hc : Consumes sep.run)
    (h : ∀ s b m a r, sep.run s = some (b, m) → p.run m = some (a, r) → 1 + sep.cost s + p.cost m + A * r.length ≤ A * s.length) :
    Line (separatedList1 sep p) (A + A2) (2 + C1 + C2 + C2) where
  inl s as r hr := by
    obtain ⟨a, as', m, rfl, h1, h2, _⟩ := (separatedList1_iff hc hp.shrinks).1 hr
    obtain ⟨u, rfl, hu⟩ := hp.inl _ _ _ h1
    obtain ⟨v, rfl, hv⟩ := sepChain_line (hs.preceded hp).inl h2
    exact ⟨u ++ v, by simp, by simp [hu, hv]⟩
  cost s := by
    change 1 + p.cost s + after (p.run s) (fun _ r => sepCost sep p (r.length + 1) r) ≤ _
    have h1 := hp.cost s
    rw [Nat.add_mul]
    cases h2 : p.run s with
    | none => simp only [after_none]; omega
    | some x =>
      obtain ⟨a, r⟩ := x
      have h3 := sepCost_line hs hp hA h (r.length + 1) r
      have h4 := hp.rest h2
      have h5 : A * lineLen r ≤ A * lineLen s := Nat.mul_le_mul_left _ (by omega)
      simp only [after_some]
      omega

theorem separatedList0_line {sep : PC β} {p : PC α} {A A1 C1 A2 C2 : Nat} (hs : Line sep A1 C1) (hp : Line p A2 C2) (hA : A1 + A2 ≤ A)
    (hc : Consumes sep.run)
    (h : ∀ s b m a r, sep.run s = some (b, m) → p.run m = some (a, r) → 1 + sep.cost s + p.cost m + A * r.length ≤ A * s.length) :
    Line (separatedList0 sep p) (A + A2) (2 + C1 + C2 + C2) where
  inl s as r hr := by
    rcases separatedList0_iff.1 hr with ⟨_, rfl, _⟩ | hr
    · exact ⟨[], rfl, by simp⟩
    · exact (separatedList1_line hs hp hA hc h).inl s as r hr
  cost s := (separatedList1_line hs hp hA hc h).cost s

end PC

namespace FaC
open PC (Line lineLen after after_none after_some sepCost)

theorem takeWhile_of_some {f : Char → Bool} {s t r : Str} (h : P.takeTill1 f s = some (t, r)) : PC.scan f s = 2 + t.length := by
  unfold P.takeTill1 at h
  have := (verify_some.1 h).1
  unfold takeTill at this
  simp only [Option.some.injEq, Prod.mk.injEq] at this
  unfold PC.scan
  rw [this.1]

theorem stateName_line : Line stateName 1 3 := (PC.takeTill1_line (by decide)).verify _

theorem stateName_tight {s n r : Str} (h : stateName.run s = some (n, r)) : stateName.cost s + r.length = 3 + s.length ∧ r.length < s.length := by
  have h1 : P.takeTill1 Fa.endsName s = some (n, r) := (verify_some.1 h).1
  have h2 := takeWhile_of_some h1
  obtain ⟨rfl, h3, _⟩ := takeTill1_some.1 h1
  have := List.length_pos_iff.2 h3
  change 1 + PC.scan _ _ + _ = _ ∧ _
  rw [h2, List.length_append]
  omega

theorem stateName_fail {s : Str} (h : stateName.run s = none) : stateName.cost s ≤ 6 := by
  change 1 + PC.scan _ s ≤ 6
  unfold PC.scan
  have h1 : P.verify (P.takeTill1 Fa.endsName) (fun elem => !Fa.reserved.contains elem) s = none := h
  by_cases h2 : (s.takeWhile (fun c => !Fa.endsName c)) = []
  · rw [h2]; simp
  · have h3 : P.takeTill1 Fa.endsName s = some (s.takeWhile (fun c => !Fa.endsName c), s.dropWhile (fun c => !Fa.endsName c)) := by
      refine verify_some.2 ⟨rfl, ?_⟩
      simpa using h2
    rcases verify_none.1 h1 with h4 | ⟨a, r, h4, h5⟩
    · rw [h3] at h4; cases h4
    · rw [h3] at h4
      cases h4
      have h6 : (s.takeWhile (fun c => !Fa.endsName c)) ∈ Fa.reserved := by simpa using h5
      have h7 : ∀ t ∈ Fa.reserved, t.length ≤ 3 := by decide
      have := h7 _ h6
      omega

theorem space1_tight {s b r : Str} (h : PC.space1.run s = some (b, r)) : PC.space1.cost s + r.length = 2 + s.length ∧ r.length < s.length := by
  have h2 := takeWhile_of_some h
  obtain ⟨rfl, h3, _⟩ := space1_some.1 h
  have := List.length_pos_iff.2 h3
  change PC.scan _ _ + _ = _ ∧ _
  rw [h2, List.length_append]
  omega

theorem names_line : Line (PC.separatedList1 PC.space1 stateName) 5 10 :=
  PC.separatedList1_line (A := 4) PC.space1_line stateName_line (by omega) space1_consumes (by
    intro s b m a r h1 h2
    have := space1_tight h1
    have := stateName_tight h2
    omega)

theorem names0_line : Line (PC.separatedList0 PC.space1 stateName) 5 10 :=
  PC.separatedList0_line (A := 4) PC.space1_line stateName_line (by omega) space1_consumes (by
    intro s b m a r h1 h2
    have := space1_tight h1
    have := stateName_tight h2
    omega)

theorem eps_line : Line eps 0 4 := ((PC.tag_line (by decide)).alt (PC.tag_line (by decide))).map _

theorem headItem_line : Line nfaHeadItem 1 10 :=
  ((stateName_line.map NfaAlphabetEntry.element).alt (eps_line.value _)).mono (by omega) (by omega)

theorem headItem_tight {s r : Str} {a : NfaAlphabetEntry} (h : nfaHeadItem.run s = some (a, r)) :
    nfaHeadItem.cost s + r.length ≤ 13 + s.length ∧ r.length < s.length := by
  have hs := headItem_line.rest h
  have he : ∀ s, (PC.value NfaAlphabetEntry.eps eps).cost s ≤ 5 := by
    intro s
    have := (eps_line.value NfaAlphabetEntry.eps).cost s
    omega
  have h0 := PC.alt_cost_le (PC.map NfaAlphabetEntry.element alphabetElem) (PC.value NfaAlphabetEntry.eps eps) s
  have h1 : nfaHeadItem.cost s = 1 + (1 + stateName.cost s) +
    (if ((PC.map NfaAlphabetEntry.element alphabetElem).run s).isNone then (PC.value NfaAlphabetEntry.eps eps).cost s else 0) := rfl
  have h2 := he s
  rcases alt_some.1 h with h3 | ⟨h3, h4⟩
  · obtain ⟨n, h5, _⟩ := map_some.1 h3
    have h6 := stateName_tight (show stateName.run s = some (n, r) from h5)
    rw [h3] at h1
    simp only [Option.isNone_some, Bool.false_eq_true, if_false] at h1
    omega
  · have h5 := stateName_fail (show stateName.run s = none from map_none.1 h3)
    obtain ⟨x, h6, _⟩ := value_some.1 h4
    have hlt : r.length < s.length := by
      rcases eps_some.1 h6 with rfl | rfl
      · simp
      · simp only [List.length_append, List.length_cons]; omega
    rw [h3] at h1
    simp only [Option.isNone_none, if_true] at h1
    omega

theorem headItems_line : Line (PC.separatedList1 PC.space1 nfaHeadItem) 10 24 :=
  PC.separatedList1_line (A := 9) PC.space1_line headItem_line (by omega) space1_consumes (by
    intro s b m a r h1 h2
    have := space1_tight h1
    have := headItem_tight h2
    omega)

/-- Names in a set: apart from the blanks read again at the end, every step is paid by a character. -/
theorem sepNames_tight : ∀ (fuel : Nat) (s : Str), s.length < fuel → ∃ as r, sepLoop PC.space1.run stateName.run fuel s = some (as, r) ∧
    sepCost PC.space1 stateName fuel s + 4 * r.length ≤ 4 * s.length + 7 + PC.space0.cost r
  | 0, s, h => by omega
  | fuel + 1, s, h => by
    rw [sepLoop, sepCost]
    have h0 : PC.space1.cost s = PC.space0.cost s := rfl
    cases h1 : PC.space1.run s with
    | none => exact ⟨[], s, rfl, by simp only [after_none]; omega⟩
    | some x =>
      obtain ⟨b, m⟩ := x
      have h2 := space1_tight h1
      have hne : ¬ (m.length == s.length) = true := by simp; omega
      simp only [after_some, hne, if_false, Bool.false_eq_true]
      cases h3 : stateName.run m with
      | none =>
        have := stateName_fail h3
        exact ⟨[], s, rfl, by simp only [after_none]; omega⟩
      | some y =>
        obtain ⟨a, r⟩ := y
        have h4 := stateName_tight h3
        obtain ⟨as, r', h5, h6⟩ := sepNames_tight fuel r (by omega)
        refine ⟨a :: as, r', by simp only [h5], ?_⟩
        simp only [after_some]
        omega

theorem names0_tight {s r : Str} {ns : List Str} (h : (PC.separatedList0 PC.space1 stateName).run s = some (ns, r)) :
    (PC.separatedList0 PC.space1 stateName).cost s + 4 * r.length ≤ 4 * s.length + 11 + PC.space0.cost r := by
  have h0 : (PC.separatedList0 PC.space1 stateName).cost s = 1 + stateName.cost s +
    after (stateName.run s) (fun _ r => sepCost PC.space1 stateName (r.length + 1) r) := rfl
  rw [h0]
  have h1 : P.separatedList0 PC.space1.run stateName.run s = some (ns, r) := h
  unfold P.separatedList0 at h1
  cases h2 : stateName.run s with
  | none =>
    rw [h2] at h1
    cases h1
    have := stateName_fail h2
    simp only [after_none]
    omega
  | some x =>
    obtain ⟨a, m⟩ := x
    obtain ⟨as, r', h3, h4⟩ := sepNames_tight (m.length + 1) m (by omega)
    rw [h2] at h1
    simp only [h3, Option.some.injEq, Prod.mk.injEq] at h1
    obtain ⟨_, rfl⟩ := h1
    have := stateName_tight h2
    simp only [after_some]
    omega

theorem space0_tight {s b r : Str} (h : PC.space0.run s = some (b, r)) : PC.space0.cost s + r.length = 2 + s.length := by
  obtain ⟨h1, _⟩ := space0_some.1 h
  have h2 : takeTill (fun c => !isBlank c) s = some (b, r) := h
  unfold takeTill at h2
  simp only [Option.some.injEq, Prod.mk.injEq] at h2
  change PC.scan _ _ + _ = _
  unfold PC.scan
  rw [h2.1, h1, List.length_append]
  omega

theorem stateSet_line : Line stateSet 7 24 :=
  (PC.tag_line (by decide)).delimited (PC.space0_line.delimited names0_line PC.space0_line) (PC.tag_line (by decide)) |>.mono (by omega) (by omega)

theorem stateSet_tight {s r : Str} {ns : List Str} (h : stateSet.run s = some (ns, r)) :
    stateSet.cost s + 4 * r.length ≤ 4 * s.length + 25 ∧ r.length < s.length := by
  obtain ⟨a, c, m1, m2, h1, h2, h3⟩ := delimited_some.1 (show P.delimited (P.tag ['{'])
    (P.delimited PC.space0.run (PC.separatedList0 PC.space1 stateName).run PC.space0.run) (P.tag ['}']) s = some (ns, r) from h)
  obtain ⟨b1, b2, m3, m4, h4, h5, h6⟩ := delimited_some.1 h2
  have e1 : (P.tag ['{']) s = some (a, m1) := h1
  obtain ⟨rfl, rfl⟩ := tag_some.1 h1
  obtain ⟨rfl, rfl⟩ := tag_some.1 h3
  have c1 := space0_tight h4
  have c2 := names0_tight h5
  have c3 := space0_tight h6
  have hc : stateSet.cost (['{'] ++ m1) = 1 + (1 + 1 + after ((P.tag ['{']) (['{'] ++ m1)) (fun _ m =>
      1 + (1 + (1 + (1 + PC.space0.cost m + after (PC.space0.run m) (fun _ m' => 1 + (1 + (PC.separatedList0 PC.space1 stateName).cost m' +
        after ((PC.separatedList0 PC.space1 stateName).run m') (fun _ m'' => PC.space0.cost m''))))) +
        after (P.delimited PC.space0.run (PC.separatedList0 PC.space1 stateName).run PC.space0.run m) (fun _ _ => 1)))) := rfl
  rw [e1] at hc
  simp only [after_some] at hc
  rw [h4] at hc
  simp only [after_some] at hc
  rw [h5] at hc
  simp only [after_some] at hc
  rw [h2] at hc
  simp only [after_some] at hc
  have s1 := (PC.space0_line.rest h4).2
  have s2 := (names0_line.rest h5).2
  have s3 := (PC.space0_line.rest h6).2
  simp only [List.length_append, List.length_cons, List.length_nil] at *
  omega

theorem sets_line : Line (PC.separatedList1 PC.space1 stateSet) 27 52 :=
  PC.separatedList1_line (A := 20) PC.space1_line stateSet_line (by omega) space1_consumes (by
    intro s b m a r h1 h2
    have := space1_tight h1
    have := stateSet_tight h2
    omega)

theorem comment_line : Line comment 1 7 := ((PC.tag_line (by decide)).pair PC.notLineEnding_line).value _ |>.mono (by omega) (by omega)

theorem spaceComment_line : Line spaceComment 2 12 := (PC.space0_line.pair comment_line.opt).value _

theorem faHead_line {α : Type} {item : PC α} {A C : Nat} (h : Line (PC.separatedList1 PC.space1 item) A C) : Line (faHead item) (A + 3) (C + 18) :=
  (PC.space0_line.delimited h spaceComment_line).mono (by omega) (by omega)

theorem arrow_line : Line arrow 0 4 := ((PC.tag_line (by decide)).alt (PC.tag_line (by decide))).map _

theorem accepting_line : Line accepting 0 2 := (PC.tag_line (by decide)).value _

theorem faLine_line {τ : Type} {entry : PC τ} {A C : Nat} (h : Line (PC.separatedList1 PC.space1 entry) A C) : Line (faLine entry) (A + 7) (C + 44) :=
  (PC.space0_line.delimited
    (((arrow_line.terminated PC.space1_line).opt.pair (accepting_line.terminated PC.space1_line).opt).pair
      ((stateName_line.terminated PC.space1_line).pair h)) spaceComment_line).mono (by omega) (by omega)

theorem dfaLine_line : Line dfaLine 12 55 := (faLine_line names_line).map _

theorem nfaLine_line : Line nfaLine 34 97 := (faLine_line sets_line).map _

/-! ## Lines that are skipped -/

theorem scl_cost (s : Str) : spaceCommentLine.cost s ≤ 2 * lineLen s + 20 := by
  have h1 := spaceComment_line.cost s
  have h2 : spaceCommentLine.cost s = 1 + (1 + (1 + (1 + (1 + spaceComment.cost s + after (spaceComment.run s) (fun _ r =>
    (PC.alt PC.lineEnding PC.eof).cost r))))) := rfl
  have h3 : after (spaceComment.run s) (fun _ r => (PC.alt PC.lineEnding PC.eof).cost r) ≤ 3 := PC.after_le _ (fun _ r =>
    PC.alt_cost_le PC.lineEnding PC.eof r)
  omega

/-- A skipped line is read to its end. -/
theorem scl_rest {s r : Str} {x : Unit} (h : spaceCommentLine.run s = some (x, r)) : lineLen s + r.length ≤ s.length ∧
    (r ≠ [] → lineLen s + r.length < s.length) := by
  have tail_nl : ∀ l, Tail l → '\n' ∉ l := by
    intro l hl hm
    rcases hl with hl | ⟨b, k, rfl, h1, h2, _⟩
    · rcases hl _ hm with h | h <;> exact absurd h (by decide)
    · rcases List.mem_append.1 hm with hm | hm
      · rcases h1 _ hm with h | h <;> exact absurd h (by decide)
      · rcases List.mem_cons.1 hm with hm | hm
        · exact absurd hm (by decide)
        · exact h2 hm
  rcases scl_sound h with ⟨l, e, h1, h2, rfl⟩ | ⟨rfl, h1, _⟩
  · have h3 := tail_nl l h1
    rcases h2 with rfl | rfl
    · have := PC.lineLen_eol (r := r) h3
      rw [List.append_assoc, List.singleton_append, this]
      simp only [List.length_append, List.length_cons]
      omega
    · have := PC.lineLen_eol (u := l ++ ['\r']) (r := r) (by simp [h3])
      have e1 : l ++ ['\r', '\n'] ++ r = (l ++ ['\r']) ++ '\n' :: r := by simp
      rw [e1, this]
      simp only [List.length_append, List.length_cons, List.length_nil]
      omega
  · have := PC.lineLen_le s
    exact ⟨by simpa using this, fun h => absurd rfl h⟩

theorem scl_round (s : Str) (x : Unit) (r : Str) (h : spaceCommentLine.run s = some (x, r)) :
    1 + spaceCommentLine.cost s + 23 * r.length ≤ 23 * s.length := by
  have h1 := scl_cost s
  have h2 := scl_rest h
  have h3 := scl_consumes s x r h
  omega

theorem skip_cost (s : Str) : ∃ us r, (PC.many0 spaceCommentLine).run s = some (us, r) ∧ r.length ≤ s.length ∧
    (PC.many0 spaceCommentLine).cost s + 23 * r.length ≤ 23 * s.length + 2 * lineLen r + 22 := by
  obtain ⟨us, r, h1, _, h2, h3⟩ := PC.many0Cost_le scl_consumes scl_round (s.length + 1) s (by omega)
  have h4 := scl_cost r
  have h5 := chain_shrinks scl_consumes.shrinks h2
  refine ⟨us, r, h1, h5, ?_⟩
  change 1 + PC.many0Cost spaceCommentLine (s.length + 1) s + _ ≤ _
  omega

theorem skip_le (s : Str) : (PC.many0 spaceCommentLine).cost s ≤ 23 * s.length + 22 := by
  obtain ⟨us, r, _, _, h⟩ := skip_cost s
  have := PC.lineLen_le r
  omega

theorem skip1_cost (s : Str) : ((PC.many1 spaceCommentLine).run s = none ∧ (PC.many1 spaceCommentLine).cost s ≤ 2 * lineLen s + 22) ∨
    ∃ us r, (PC.many1 spaceCommentLine).run s = some (us, r) ∧ r.length < s.length ∧ lineLen s + r.length ≤ s.length ∧
      (r ≠ [] → lineLen s + r.length < s.length) ∧
      (PC.many1 spaceCommentLine).cost s + 23 * r.length ≤ 23 * s.length + 2 * lineLen r + 23 := by
  have h0 : (PC.many1 spaceCommentLine).cost s = 1 + (1 + spaceCommentLine.cost s +
    after (spaceCommentLine.run s) (fun _ r => (PC.many0 spaceCommentLine).cost r)) := rfl
  rw [h0]
  have h1 := scl_cost s
  cases h2 : spaceCommentLine.run s with
  | none =>
    left
    refine ⟨map_none.2 (pair_none.2 (Or.inl h2)), ?_⟩
    simp only [after_none]
    omega
  | some x =>
    obtain ⟨u, m⟩ := x
    right
    obtain ⟨us, r, h3, h4, h5⟩ := skip_cost m
    have h6 := scl_round s u m h2
    have h7 := scl_rest h2
    have h8 := scl_consumes s u m h2
    refine ⟨u :: us, r, map_some.2 ⟨(u, us), pair_some.2 ⟨m, h2, h3⟩, rfl⟩, by omega, by omega, ?_, ?_⟩
    · intro hr
      have : m ≠ [] := by
        rintro rfl
        exact hr (List.length_eq_zero_iff.1 (by simpa using h4))
      have := h7.2 this
      omega
    · simp only [after_some]
      omega

/-- The rows of a table. -/
theorem rows_cost {σ : Type} {line : PC σ} {A C K : Nat} (h : Line line A C) (hc : Consumes line.run) (hK1 : 47 + C ≤ K) (hK2 : 25 + A ≤ K) :
    ∀ (fuel : Nat) (s : Str), sepCost (PC.many1 spaceCommentLine) line fuel s + K * lineLen s ≤ K * s.length + 23 * lineLen s + (24 + C)
  | 0, s => by
    have := Nat.mul_le_mul_left K (PC.lineLen_le s)
    change 0 + _ ≤ _
    omega
  | fuel + 1, s => by
    rw [sepCost]
    have hL := Nat.mul_le_mul_left K (PC.lineLen_le s)
    rcases skip1_cost s with ⟨h1, h2⟩ | ⟨us, m, h1, h2, h3, h4, h5⟩
    · rw [h1, after_none]
      omega
    · have hne : ¬ (m.length == s.length) = true := by simp; omega
      simp only [h1, after_some, hne, if_false, Bool.false_eq_true]
      have h6 := h.cost m
      have h7 := PC.lineLen_le m
      -- `x` characters are after the first line of `s` and before `m`
      obtain ⟨x, hx⟩ : ∃ x, s.length = lineLen s + m.length + x := ⟨s.length - lineLen s - m.length, by omega⟩
      obtain ⟨y, hy⟩ : ∃ y, m.length = lineLen m + y := ⟨m.length - lineLen m, by omega⟩
      have e1 : K * s.length = K * lineLen s + K * lineLen m + K * y + K * x := by rw [hx, hy]; ring
      have e2 : (25 + A) * lineLen m ≤ K * lineLen m := Nat.mul_le_mul_right _ hK2
      have e3 : 23 * x ≤ K * x := Nat.mul_le_mul_right _ (by omega)
      have e4 : 23 * y ≤ K * y := Nat.mul_le_mul_right _ (by omega)
      have e5 : (25 + A) * lineLen m = 25 * lineLen m + A * lineLen m := by ring
      cases h8 : line.run m with
      | none => simp only [after_none]; omega
      | some z =>
        obtain ⟨a, r⟩ := z
        have h9 := h.rest h8
        have h10 := hc _ _ _ h8
        have h11 : m ≠ [] := by rintro rfl; simp at h10
        have h12 := h4 h11
        have h13 := rows_cost h hc hK1 hK2 fuel r
        have h14 : lineLen r ≤ lineLen m := by omega
        have h15 : r.length = lineLen r + y := by omega
        have e6 : K * r.length = K * lineLen r + K * y := by rw [h15]; ring
        obtain ⟨x', rfl⟩ : ∃ x', x = x' + 1 := ⟨x - 1, by omega⟩
        have e7 : K * (x' + 1) = K * x' + K := by ring
        have e8 : 23 * x' ≤ K * x' := Nat.mul_le_mul_right _ (by omega)
        simp only [after_some]
        omega

theorem rows_le {σ : Type} {line : PC σ} {A C K : Nat} (h : Line line A C) (hc : Consumes line.run) (hK1 : 47 + C ≤ K) (hK2 : 25 + A ≤ K)
    (s : Str) : (PC.separatedList1 (PC.many1 spaceCommentLine) line).cost s ≤ (A + K) * s.length + (25 + 2 * C) := by
  have h0 : (PC.separatedList1 (PC.many1 spaceCommentLine) line).cost s = 1 + line.cost s +
    after (line.run s) (fun _ r => sepCost (PC.many1 spaceCommentLine) line (r.length + 1) r) := rfl
  rw [h0]
  have h1 := h.cost s
  have h2 := Nat.mul_le_mul_left A (PC.lineLen_le s)
  have e : (A + K) * s.length = A * s.length + K * s.length := by ring
  cases h3 : line.run s with
  | none => simp only [after_none]; omega
  | some x =>
    obtain ⟨a, r⟩ := x
    have h4 := rows_cost h hc hK1 hK2 (r.length + 1) r
    have h5 := h.rest h3
    have h6 : 23 * lineLen r ≤ K * lineLen r := Nat.mul_le_mul_right _ (by omega)
    have h7 : K * r.length ≤ K * s.length := Nat.mul_le_mul_left _ h5.2
    simp only [after_some]
    omega

/-! ## Whole texts -/

/-- The cost of two parsers one after the other. -/
theorem pair_le {α β : Type} {p : PC α} {q : PC β} {s : Str} {K C : Nat} (hp : Shrinks p.run) (hq : ∀ m : Str, m.length ≤ s.length → q.cost m ≤ K * s.length + C) :
    (PC.pair p q).cost s ≤ 1 + p.cost s + (K * s.length + C) := by
  change 1 + p.cost s + after (p.run s) (fun _ r => q.cost r) ≤ _
  cases h : p.run s with
  | none => simp only [after_none]; omega
  | some x =>
    have := hq x.2 (hp s x.1 x.2 h)
    change 1 + p.cost s + q.cost x.2 ≤ _
    omega

theorem full_cost {α σ : Type} {head : PC (List α)} {line : PC σ} {A C K Ah Ch : Nat} (hh : Line head Ah Ch) (h : Line line A C)
    (hc : Consumes line.run) (hK1 : 47 + C ≤ K) (hK2 : 25 + A ≤ K) (s : Str) :
    (fullFa head line).cost s ≤ (69 + Ah + A + K) * s.length + (101 + Ch + 2 * C) := by
  have skS : Shrinks (PC.many0 spaceCommentLine).run := many0_shrinks scl_consumes
  have lS : Shrinks PC.lineEnding.run := by
    intro s a r hs
    obtain ⟨_, rfl⟩ := lineEnding_some.1 (show P.lineEnding s = some (a, r) from hs)
    simp
  have rowS : Shrinks (PC.separatedList1 (PC.many1 spaceCommentLine) line).run :=
    (separatedList1_consumes (many1_consumes scl_consumes) hc).shrinks
  -- `preceded(many0(..), separated_list1(..))`
  have c1 : ∀ m : Str, m.length ≤ s.length → (PC.preceded (PC.many0 spaceCommentLine) (PC.separatedList1 (PC.many1 spaceCommentLine) line)).cost m ≤
      (23 + (A + K)) * s.length + (24 + (25 + 2 * C)) := by
    intro m hm
    have h1 := pair_le (p := PC.many0 spaceCommentLine) (q := PC.separatedList1 (PC.many1 spaceCommentLine) line) (s := m) (K := A + K)
      (C := 25 + 2 * C) skS (fun m' hm' => by
        have := rows_le h hc hK1 hK2 m'
        have := Nat.mul_le_mul_left (A + K) hm'
        omega)
    have h2 := skip_le m
    have h3 := Nat.mul_le_mul_left (A + K) hm
    have e : (23 + (A + K)) * s.length = 23 * s.length + (A + K) * s.length := by ring
    change 1 + (PC.pair (PC.many0 spaceCommentLine) (PC.separatedList1 (PC.many1 spaceCommentLine) line)).cost m ≤ _
    omega
  have S1 : Shrinks (PC.preceded (PC.many0 spaceCommentLine) (PC.separatedList1 (PC.many1 spaceCommentLine) line)).run := by
    intro s a r hs
    obtain ⟨_, m, h1, h2⟩ := preceded_some.1 (show P.preceded (PC.many0 spaceCommentLine).run (PC.separatedList1 (PC.many1 spaceCommentLine) line).run s = some (a, r) from hs)
    have := skS _ _ _ h1
    have := rowS _ _ _ h2
    omega
  -- `terminated(head, line_ending)`
  have S2 : Shrinks (PC.terminated head PC.lineEnding).run := by
    intro s a r hs
    obtain ⟨_, m, h1, h2⟩ := terminated_some.1 (show P.terminated head.run PC.lineEnding.run s = some (a, r) from hs)
    have := hh.shrinks _ _ _ h1
    have := lS _ _ _ h2
    omega
  have c2 : ∀ m : Str, (PC.terminated head PC.lineEnding).cost m ≤ Ah * m.length + (Ch + 3) := by
    intro m
    have h1 := pair_le (p := head) (q := PC.lineEnding) (s := m) (K := 0) (C := 1) hh.shrinks (fun _ _ => by change 1 ≤ _; omega)
    have h2 := hh.cost m
    have h3 := Nat.mul_le_mul_left Ah (PC.lineLen_le m)
    change 1 + (PC.pair head PC.lineEnding).cost m ≤ _
    omega
  -- the pair of both
  have c3 : ∀ m : Str, m.length ≤ s.length → (PC.pair (PC.terminated head PC.lineEnding)
      (PC.preceded (PC.many0 spaceCommentLine) (PC.separatedList1 (PC.many1 spaceCommentLine) line))).cost m ≤
      (Ah + (23 + (A + K))) * s.length + (1 + (Ch + 3) + (24 + (25 + 2 * C))) := by
    intro m hm
    change 1 + (PC.terminated head PC.lineEnding).cost m + after ((PC.terminated head PC.lineEnding).run m)
      (fun _ r => (PC.preceded (PC.many0 spaceCommentLine) (PC.separatedList1 (PC.many1 spaceCommentLine) line)).cost r) ≤ _
    have h1 := c2 m
    have h2 := Nat.mul_le_mul_left Ah hm
    have e : (Ah + (23 + (A + K))) * s.length = Ah * s.length + (23 + (A + K)) * s.length := by ring
    cases h3 : (PC.terminated head PC.lineEnding).run m with
    | none => simp only [after_none]; omega
    | some x =>
      have h4 := S2 m x.1 x.2 h3
      have h5 := c1 x.2 (by omega)
      change 1 + _ + (PC.preceded (PC.many0 spaceCommentLine) (PC.separatedList1 (PC.many1 spaceCommentLine) line)).cost x.2 ≤ _
      omega
  have S3 : Shrinks (PC.pair (PC.terminated head PC.lineEnding)
      (PC.preceded (PC.many0 spaceCommentLine) (PC.separatedList1 (PC.many1 spaceCommentLine) line))).run := by
    intro s a r hs
    obtain ⟨m, h1, h2⟩ := pair_some.1 hs
    have := S2 _ _ _ h1
    have := S1 _ _ _ h2
    omega
  -- `terminated(.., many0(..))`
  have c4 : ∀ m : Str, m.length ≤ s.length → (PC.terminated (PC.pair (PC.terminated head PC.lineEnding)
      (PC.preceded (PC.many0 spaceCommentLine) (PC.separatedList1 (PC.many1 spaceCommentLine) line))) (PC.many0 spaceCommentLine)).cost m ≤
      (Ah + (23 + (A + K)) + 23) * s.length + (2 + (1 + (Ch + 3) + (24 + (25 + 2 * C))) + 22) := by
    intro m hm
    have h1 := pair_le (p := PC.pair (PC.terminated head PC.lineEnding)
      (PC.preceded (PC.many0 spaceCommentLine) (PC.separatedList1 (PC.many1 spaceCommentLine) line))) (q := PC.many0 spaceCommentLine)
      (s := m) (K := 23) (C := 22) S3 (fun m' hm' => by have := skip_le m'; omega)
    have h2 := c3 m hm
    have e : (Ah + (23 + (A + K)) + 23) * s.length = (Ah + (23 + (A + K))) * s.length + 23 * s.length := by ring
    change 1 + (PC.pair (PC.pair (PC.terminated head PC.lineEnding)
      (PC.preceded (PC.many0 spaceCommentLine) (PC.separatedList1 (PC.many1 spaceCommentLine) line))) (PC.many0 spaceCommentLine)).cost m ≤ _
    omega
  have h1 := pair_le (p := PC.many0 spaceCommentLine) (q := PC.terminated (PC.pair (PC.terminated head PC.lineEnding)
      (PC.preceded (PC.many0 spaceCommentLine) (PC.separatedList1 (PC.many1 spaceCommentLine) line))) (PC.many0 spaceCommentLine))
      (s := s) (K := Ah + (23 + (A + K)) + 23) (C := 2 + (1 + (Ch + 3) + (24 + (25 + 2 * C))) + 22) skS c4
  have h2 := skip_le s
  have e : (69 + Ah + A + K) * s.length = 23 * s.length + (Ah + (23 + (A + K)) + 23) * s.length := by ring
  change 1 + (PC.pair (PC.many0 spaceCommentLine) (PC.terminated (PC.pair (PC.terminated head PC.lineEnding)
      (PC.preceded (PC.many0 spaceCommentLine) (PC.separatedList1 (PC.many1 spaceCommentLine) line))) (PC.many0 spaceCommentLine))).cost s ≤ _
  omega

theorem dfaCost_le (s : Str) : dfaCost s ≤ 191 * s.length + 242 := by
  have h := full_cost (K := 102) (faHead_line names_line) dfaLine_line dfaLine_good.consumes (by omega) (by omega) s
  change 2 + (1 + (fullFa (faHead alphabetElem) dfaLine).cost s) ≤ _
  have e : fullFa (faHead alphabetElem) dfaLine = fullFa (faHead stateName) dfaLine := rfl
  rw [e]
  omega

theorem nfaCost_le (s : Str) : nfaCost s ≤ 260 * s.length + 340 := by
  have h := full_cost (K := 144) (faHead_line headItems_line) nfaLine_line nfaLine_good.consumes (by omega) (by omega) s
  change 2 + (1 + (fullFa (faHead nfaHeadItem) nfaLine).cost s) ≤ _
  omega

end FaC
end Dandy
