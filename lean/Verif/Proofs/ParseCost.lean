import Verif.Model.ParseCost
import Verif.Proofs.RegexParser
import Verif.Proofs.FaParser
/-! # The work done by the parsers: lemmas -/

namespace Dandy
open P

namespace PC
variable {α β : Type}

@[simp] theorem after_none (f : α → Str → Nat) : after none f = 0 := rfl
@[simp] theorem after_some (a : α) (r : Str) (f : α → Str → Nat) : after (some (a, r)) f = f a r := rfl

theorem after_le {c : Nat} (x : Option (α × Str)) {f : α → Str → Nat} (h : ∀ a r, f a r ≤ c) : after x f ≤ c := by
  cases x with
  | none => exact Nat.zero_le _
  | some y => exact h _ _

theorem alt_cost_le (p q : PC α) (s : Str) : (alt p q).cost s ≤ 1 + p.cost s + q.cost s := by
  change 1 + p.cost s + (if (p.run s).isNone then q.cost s else 0) ≤ _
  split <;> omega

/-- The rounds of `many0`, if every successful round costs at most `A` for every character it takes. -/
theorem many0Cost_le {A : Nat} {p : PC α} (hc : Consumes p.run)
    (h : ∀ s a r, p.run s = some (a, r) → 1 + p.cost s + A * r.length ≤ A * s.length) :
    ∀ (fuel : Nat) (s : Str), s.length < fuel → ∃ as r, many0Loop p.run fuel s = some (as, r) ∧ p.run r = none ∧ Chain p.run s as r ∧
      many0Cost p fuel s + A * r.length ≤ A * s.length + 1 + p.cost r
  | 0, s, hs => by omega
  | fuel + 1, s, hs => by
    rw [many0Loop, many0Cost]
    cases h1 : p.run s with
    | none => exact ⟨[], s, rfl, h1, .nil s, by rw [after_none]; omega⟩
    | some x =>
      obtain ⟨a, m⟩ := x
      have hlt := hc s a m h1
      have hne : ¬ (m.length == s.length) = true := by simp; omega
      obtain ⟨as, r, h2, h3, h4, h5⟩ := many0Cost_le hc h fuel m (by omega)
      have := h s a m h1
      refine ⟨a :: as, r, ?_, h3, .cons h1 h4, ?_⟩
      · simp only [hne, h2, if_false, Bool.false_eq_true]
      · simp only [after_some, hne, if_false, Bool.false_eq_true]
        omega

end PC

namespace RegexC
open PC (after after_none after_some after_le many0Cost many0Cost_le sepCost)
variable {cl : Str → Nat}

theorem expression_run (copy : RegexTree → Nat) (cl : Str → Nat) : ∀ d, (expression copy cl d).run = RegexParser.expression cl d
  | 0 => rfl
  | d + 1 => by
    have := expression_run copy cl d
    rw [RegexParser.expression, ← this]
    rfl

/-- No cost for copies. -/
abbrev free : RegexTree → Nat := fun _ => 0

theorem after_free (x : Option ((RegexTree × Option Char) × Str)) : after x (fun a _ => if a.2 = some '+' then free a.1 else 0) = 0 := by
  cases x with
  | none => rfl
  | some y => obtain ⟨a, r⟩ := y; rw [after_some]; split <;> rfl

theorem regexChar_cost (s : Str) : (regexChar cl).cost s ≤ 13 := by
  have h : (escapedChar cl).cost s ≤ 4 := by
    have := after_le (c := 1) ((PC.oneOf ['\\']).run s) (fun _ _ => Nat.le_refl 1)
    change 1 + (1 + 1 + after _ (fun _ _ => 1)) ≤ 4
    omega
  have h1 := PC.alt_cost_le emptyLang (PC.alt emptyStr (PC.alt (escapedChar cl) (normalChar cl))) s
  have h2 := PC.alt_cost_le emptyStr (PC.alt (escapedChar cl) (normalChar cl)) s
  have h3 := PC.alt_cost_le (escapedChar cl) (normalChar cl) s
  have h4 : emptyLang.cost s = 2 := rfl
  have h5 : emptyStr.cost s = 2 := rfl
  have h6 : (normalChar cl).cost s = 2 := rfl
  have h7 : (regexChar cl).cost s = (PC.alt emptyLang (PC.alt emptyStr (PC.alt (escapedChar cl) (normalChar cl)))).cost s := rfl
  omega

theorem combinatedChar_cost (s : Str) : (combinatedChar free cl).cost s ≤ 18 := by
  have := regexChar_cost (cl := cl) s
  have h1 := after_le (c := 2) ((PC.map RegexTree.chr (regexChar cl)).run s) (fun _ _ => Nat.le_refl 2)
  have h2 := after_free ((PC.pair (PC.map RegexTree.chr (regexChar cl)) (PC.opt (PC.oneOf ['+', '*']))).run s)
  change 1 + (1 + (1 + (regexChar cl).cost s) + after _ (fun _ _ => 2)) + after _ (fun _ _ => _) ≤ 18
  omega

/-- What is assumed about the parser of expressions inside of parentheses. -/
structure Good (e : PC RegexTree) : Prop where
  le : ∀ s, e.cost s ≤ 64 * s.length + 30
  tight : ∀ s t r, e.run s = some (t, ')' :: r) → e.cost s + 64 * (r.length + 1) ≤ 64 * s.length + 30

/-- The parser of items. -/
abbrev item (cl : Str → Nat) (e : PC RegexTree) : PC RegexTree := PC.alt (parExpr free e) (combinatedChar free cl)

theorem parExpr_cost_other {e : PC RegexTree} {s : Str} (h : s.head? ≠ some '(') : (parExpr free e).run s = none ∧ (parExpr free e).cost s ≤ 5 := by
  have h0 : (PC.oneOf ['(']).run s = none := oneOf_none.2 (by
    intro c hc hm
    rw [List.mem_singleton] at hm
    subst hm
    exact h hc)
  have h1 : (PC.delimited (PC.oneOf ['(']) e (PC.oneOf [')'])).run s = none := preceded_none.2 (Or.inl h0)
  refine ⟨map_none.2 (pair_none.2 (Or.inl h1)), ?_⟩
  change 1 + (1 + (1 + (1 + 1 + after ((PC.oneOf ['(']).run s) _)) + after ((PC.delimited (PC.oneOf ['(']) e (PC.oneOf [')'])).run s) _) +
    after ((PC.pair (PC.delimited (PC.oneOf ['(']) e (PC.oneOf [')'])) (PC.opt (PC.oneOf ['+', '*']))).run s) _ ≤ 5
  have h2 : (PC.pair (PC.delimited (PC.oneOf ['(']) e (PC.oneOf [')'])) (PC.opt (PC.oneOf ['+', '*']))).run s = none := pair_none.2 (Or.inl h1)
  rw [h0, h1, h2]
  simp

theorem parExpr_cost_par {e : PC RegexTree} (s : Str) : (parExpr free e).cost ('(' :: s) ≤ 10 + e.cost s := by
  have h1 := after_le (c := 1) (e.run s) (fun _ _ => Nat.le_refl 1)
  have h2 := after_le (c := 2) ((PC.delimited (PC.oneOf ['(']) e (PC.oneOf [')'])).run ('(' :: s)) (fun _ _ => Nat.le_refl 2)
  have h3 := after_free ((PC.pair (PC.delimited (PC.oneOf ['(']) e (PC.oneOf [')'])) (PC.opt (PC.oneOf ['+', '*']))).run ('(' :: s))
  have h : (parExpr free e).cost ('(' :: s) = 1 + (1 + (1 + (1 + 1 + (1 + (1 + e.cost s + after (e.run s) (fun _ _ => 1))))) +
    after ((PC.delimited (PC.oneOf ['(']) e (PC.oneOf [')'])).run ('(' :: s)) (fun _ _ => 2)) +
    after ((PC.pair (PC.delimited (PC.oneOf ['(']) e (PC.oneOf [')'])) (PC.opt (PC.oneOf ['+', '*']))).run ('(' :: s))
      (fun a _ => if a.2 = some '+' then free a.1 else 0) := rfl
  omega

theorem item_ok {e : PC RegexTree} (hcl : Segmentation cl) (hc : Consumes e.run) (he : Good e) {s r : Str} {t : RegexTree}
    (h : (item cl e).run s = some (t, r)) : (item cl e).cost s + 10 + 64 * r.length ≤ 64 * s.length := by
  have hlt : r.length < s.length := Dandy.itemP_consumes hcl hc s t r h
  change 1 + (parExpr free e).cost s + (if _ then (combinatedChar free cl).cost s else 0) + _ + _ ≤ _
  have h1 := combinatedChar_cost (cl := cl) s
  by_cases hs : s.head? = some '('
  · obtain ⟨s', rfl⟩ : ∃ s', s = '(' :: s' := by
      cases s with
      | nil => cases hs
      | cons c s => cases hs; exact ⟨s, rfl⟩
    have h2 := parExpr_cost_par (e := e) s'
    rcases alt_some.1 h with h3 | ⟨_, h3⟩
    · rw [if_neg (by rw [h3]; simp)]
      obtain ⟨x, h4, _⟩ := map_some.1 h3
      obtain ⟨m, h5, h6⟩ := pair_some.1 h4
      obtain ⟨a, c, m1, m2, h7, h8, h9⟩ := delimited_some.1 (show P.delimited (P.oneOf ['(']) e.run (P.oneOf [')']) ('(' :: s') = some (x.1, m) from h5)
      obtain ⟨_, h7⟩ := oneOf_some.1 h7
      cases h7
      obtain ⟨h10, h9⟩ := oneOf_some.1 h9
      rw [List.mem_singleton] at h10
      subst h10 h9
      have h11 := he.tight _ _ _ h8
      have h12 := opt_shrinks (oneOf_consumes _).shrinks _ _ _ h6
      simp only [List.length_cons] at *
      omega
    · exfalso
      obtain ⟨x, h4, _⟩ := map_some.1 h3
      obtain ⟨m, h5, h6⟩ := pair_some.1 h4
      obtain ⟨y, h7, _⟩ := map_some.1 h5
      exact absurd h7 (by
        have : RegexParser.regexChar cl ('(' :: s') = none := by
          unfold RegexParser.regexChar
          rw [alt_none, alt_none, alt_none]
          refine ⟨rfl, rfl, rfl, ?_⟩
          unfold RegexParser.normalChar
          rw [verify_none]
          right
          refine ⟨_, _, rfl, ?_⟩
          simp only [Dandy.head_take hcl]
          rfl
        rw [show (regexChar cl).run = RegexParser.regexChar cl from rfl, this]
        simp)
  · obtain ⟨_, h2⟩ := parExpr_cost_other (e := e) hs
    split <;> omega

theorem item_fail {e : PC RegexTree} (he : Good e) (s : Str) : (s.head? ≠ some '(' → (item cl e).cost s ≤ 24) ∧
    (s.head? = some '(' → (item cl e).cost s + 64 ≤ 64 * s.length + 59) := by
  have h0 : (item cl e).cost s = 1 + (parExpr free e).cost s + (if ((parExpr free e).run s).isNone then (combinatedChar free cl).cost s else 0) := rfl
  have h1 := combinatedChar_cost (cl := cl) s
  rw [h0]
  constructor
  · intro hs
    have := (parExpr_cost_other (e := e) hs).2
    split <;> omega
  · intro hs
    obtain ⟨s', rfl⟩ : ∃ s', s = '(' :: s' := by
      cases s with
      | nil => cases hs
      | cons c s => cases hs; exact ⟨s, rfl⟩
    have h2 := parExpr_cost_par (e := e) s'
    have := he.le s'
    simp only [List.length_cons]
    split <;> omega

theorem sequence_cost {e : PC RegexTree} (hcl : Segmentation cl) (hc : Consumes e.run) (he : Good e) (s : Str) :
    ((sequence free cl e).run s = none ∧ (sequence free cl e).cost s ≤ 4 + (item cl e).cost s) ∨
    ∃ t r, (sequence free cl e).run s = some (t, r) ∧ r.length < s.length ∧
      (sequence free cl e).cost s + 64 * r.length + 5 ≤ 64 * s.length + (item cl e).cost r := by
  have h0 : (sequence free cl e).cost s = 1 + (1 + (1 + (item cl e).cost s + after ((item cl e).run s) (fun _ r => (PC.many0 (item cl e)).cost r))) := rfl
  rw [h0]
  have hci : Consumes (item cl e).run := Dandy.itemP_consumes hcl hc
  cases h1 : (item cl e).run s with
  | none =>
    left
    refine ⟨map_none.2 (map_none.2 (pair_none.2 (Or.inl h1))), ?_⟩
    simp only [after_none]
    omega
  | some x =>
    obtain ⟨t, m⟩ := x
    right
    have h2 := item_ok hcl hc he h1
    obtain ⟨ts, r, h3, h4, h5, h6⟩ := many0Cost_le (A := 64) hci (fun s a r h => by have := item_ok hcl hc he h; omega) (m.length + 1) m (by omega)
    have h7 := hci _ _ _ h1
    have h8 := chain_shrinks hci.shrinks h5
    have h9 : (PC.many0 (item cl e)).run m = some (ts, r) := h3
    refine ⟨_, r, map_some.2 ⟨_, map_some.2 ⟨(t, ts), pair_some.2 ⟨m, h1, h9⟩, rfl⟩, rfl⟩, by omega, ?_⟩
    simp only [after_some]
    change 1 + (1 + (1 + _ + (1 + many0Cost (item cl e) (m.length + 1) m))) + _ + _ ≤ _
    omega

theorem sepCost_le {e : PC RegexTree} (hcl : Segmentation cl) (hc : Consumes e.run) (he : Good e) :
    ∀ (fuel : Nat) (s : Str), s.length < fuel → ∃ ts r y, sepLoop (PC.oneOf ['|']).run (sequence free cl e).run fuel s = some (ts, r) ∧
      sepCost (PC.oneOf ['|']) (sequence free cl e) fuel s + 64 * r.length ≤ 64 * s.length + y ∧ r.length ≤ s.length ∧
      (r.head? ≠ some '(' → r.head? ≠ some '|' → y ≤ 2) ∧ (r.head? = some '(' ∨ r.head? = some '|' → y + 64 ≤ 64 * r.length + 59) ∧
      (s.head? ≠ some '|' → r = s ∧ y ≤ 2)
  | 0, s, hs => by omega
  | fuel + 1, s, hs => by
    rw [sepLoop, sepCost]
    by_cases h1 : s.head? = some '|'
    · obtain ⟨m, rfl⟩ : ∃ m, s = '|' :: m := by
        cases s with
        | nil => cases h1
        | cons c s => cases h1; exact ⟨s, rfl⟩
      have h2 : (PC.oneOf ['|']).run ('|' :: m) = some ('|', m) := rfl
      have hne : ¬ (m.length == ('|' :: m).length) = true := by simp
      have hco : (PC.oneOf ['|']).cost ('|' :: m) = 1 := rfl
      simp only [h2, hne, after_some, if_false, Bool.false_eq_true, hco]
      rcases sequence_cost hcl hc he m with ⟨h3, h4⟩ | ⟨t, r, h3, h4, h5⟩
      · have h6 := item_fail (cl := cl) he m
        refine ⟨[], '|' :: m, 2 + (sequence free cl e).cost m, by rw [h3], by rw [h3, after_none]; omega, Nat.le_refl _, ?_, ?_, ?_⟩
        · intro _ h; exact absurd rfl h
        · intro _
          simp only [List.length_cons]
          by_cases hm : m.head? = some '('
          · have := h6.2 hm; omega
          · have := h6.1 hm; omega
        · intro h; exact absurd rfl h
      · obtain ⟨ts, r', y, h6, h7, h8, h9, h10, h11⟩ := sepCost_le hcl hc he fuel r (by simp only [List.length_cons] at hs; omega)
        have h12 := item_fail (cl := cl) he r
        by_cases hr : r.head? = some '('
        · obtain ⟨rfl, h13⟩ := h11 (by rw [hr]; simp)
          have h14 := h12.2 hr
          refine ⟨t :: ts, r', (item cl e).cost r', by rw [h3]; simp only [h6], ?_, ?_, ?_, ?_, ?_⟩
          · rw [h3, after_some]; simp only [List.length_cons]; omega
          · simp only [List.length_cons]; omega
          · intro h; exact absurd hr h
          · intro _; omega
          · intro h; exact absurd rfl h
        · have h14 := h12.1 hr
          refine ⟨t :: ts, r', y, by rw [h3]; simp only [h6], ?_, ?_, h9, h10, ?_⟩
          · rw [h3, after_some]; simp only [List.length_cons]; omega
          · simp only [List.length_cons]; omega
          · intro h; exact absurd rfl h
    · have h2 : (PC.oneOf ['|']).run s = none := oneOf_none.2 (by
        intro c hc hm
        rw [List.mem_singleton] at hm
        subst hm
        exact h1 hc)
      have hco : (PC.oneOf ['|']).cost s = 1 := rfl
      refine ⟨[], s, 2, by rw [h2], by rw [h2, after_none, hco]; omega, Nat.le_refl _, fun _ _ => Nat.le_refl _, ?_, fun _ => ⟨rfl, Nat.le_refl _⟩⟩
      intro h
      have : 1 ≤ s.length := by
        cases s with
        | nil => simp at h
        | cons _ _ => simp
      omega

theorem expression_good (hcl : Segmentation cl) : ∀ d, Good (expression free cl d)
  | 0 => ⟨fun s => Nat.zero_le _, fun s t r h => by cases h⟩
  | d + 1 => by
    have he := expression_good hcl d
    have hc : Consumes (expression free cl d).run := by rw [expression_run]; exact Dandy.expression_consumes hcl d
    change Good (alternation free cl (expression free cl d))
    generalize expression free cl d = e at he hc ⊢
    have h0 : ∀ s, (alternation free cl e).cost s = 1 + (1 + (sequence free cl e).cost s +
      after ((sequence free cl e).run s) (fun _ r => sepCost (PC.oneOf ['|']) (sequence free cl e) (r.length + 1) r)) := fun _ => rfl
    have h00 : ∀ s, (alternation free cl e).run s = P.map (RegexParser.wrapMultiple .alt)
      (P.separatedList1 (PC.oneOf ['|']).run (sequence free cl e).run) s := fun _ => rfl
    have key : ∀ s, (alternation free cl e).cost s ≤ 64 * s.length + 30 ∧
        ∀ t r, (alternation free cl e).run s = some (t, ')' :: r) → (alternation free cl e).cost s + 64 * (r.length + 1) ≤ 64 * s.length + 30 := by
      intro s
      have h1 := item_fail (cl := cl) he s
      rw [h0, h00]
      rcases sequence_cost hcl hc he s with ⟨h3, h4⟩ | ⟨t, r, h3, h4, h5⟩
      · rw [h3, after_none]
        constructor
        · by_cases hm : s.head? = some '('
          · have := h1.2 hm; omega
          · have := h1.1 hm; omega
        · intro t r h
          obtain ⟨_, h, _⟩ := map_some.1 h
          unfold separatedList1 at h
          rw [h3] at h
          cases h
      · obtain ⟨ts, r', y, h6, h7, h8, h9, h10, h11⟩ := sepCost_le hcl hc he (r.length + 1) r (by omega)
        have h12 := item_fail (cl := cl) he r
        rw [h3, after_some]
        constructor
        · by_cases hr : r.head? = some '('
          · obtain ⟨rfl, h13⟩ := h11 (by rw [hr]; simp)
            have h14 := h12.2 hr
            omega
          · have h14 := h12.1 hr
            by_cases hb : r'.head? = some '(' ∨ r'.head? = some '|'
            · have := h10 hb; omega
            · rw [not_or] at hb
              have := h9 hb.1 hb.2; omega
        · intro t' r'' h
          obtain ⟨a, h, _⟩ := map_some.1 h
          unfold separatedList1 at h
          rw [h3] at h
          simp only [h6, Option.some.injEq, Prod.mk.injEq] at h
          obtain ⟨_, rfl⟩ := h
          have := h9 (by simp) (by simp)
          simp only [List.length_cons] at *
          by_cases hr : r.head? = some '('
          · obtain ⟨h15, h13⟩ := h11 (by rw [hr]; simp)
            rw [← h15] at hr
            simp at hr
          · have h14 := h12.1 hr
            omega
    exact ⟨fun s => (key s).1, fun s t r h => (key s).2 t r h⟩

end RegexC
end Dandy
