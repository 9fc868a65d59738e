import Mathlib.Tactic.Tauto
import Verif.Model.Nom
/-! # Lemmas about parser combinators -/

namespace Dandy
namespace P
variable {α β γ : Type}

/-- A parser that always consumes something. -/
def Consumes (p : P α) : Prop := ∀ s a r, p s = some (a, r) → r.length < s.length

/-- A parser never gives back more than it got. -/
def Shrinks (p : P α) : Prop := ∀ s a r, p s = some (a, r) → r.length ≤ s.length

theorem Consumes.shrinks {p : P α} (h : Consumes p) : Shrinks p := fun s a r hs => Nat.le_of_lt (h s a r hs)

theorem map_some {f : α → β} {p : P α} {s r : Str} {b : β} : map f p s = some (b, r) ↔ ∃ a, p s = some (a, r) ∧ f a = b := by
  unfold map
  cases h : p s with
  | none => simp
  | some x =>
    obtain ⟨a, r'⟩ := x
    simp only [Option.some.injEq, Prod.mk.injEq]
    constructor
    · rintro ⟨rfl, rfl⟩; exact ⟨a, ⟨rfl, rfl⟩, rfl⟩
    · rintro ⟨_, ⟨rfl, rfl⟩, rfl⟩; exact ⟨rfl, rfl⟩

theorem map_none {f : α → β} {p : P α} {s : Str} : map f p s = none ↔ p s = none := by
  unfold map
  cases h : p s <;> simp

theorem pair_some {p : P α} {q : P β} {s r : Str} {x : α × β} :
    pair p q s = some (x, r) ↔ ∃ m, p s = some (x.1, m) ∧ q m = some (x.2, r) := by
  unfold pair
  obtain ⟨a, b⟩ := x
  cases h : p s with
  | none => simp
  | some x =>
    obtain ⟨a', m⟩ := x
    simp only
    cases h2 : q m with
    | none =>
      simp only [Option.some.injEq, Prod.mk.injEq, reduceCtorEq, false_iff]
      rintro ⟨m', ⟨rfl, rfl⟩, h3⟩
      rw [h2] at h3; cases h3
    | some y =>
      obtain ⟨b', r'⟩ := y
      simp
      constructor
      · rintro ⟨⟨rfl, rfl⟩, rfl⟩; exact ⟨m, ⟨rfl, rfl⟩, h2⟩
      · rintro ⟨m', ⟨rfl, rfl⟩, h3⟩
        rw [h2] at h3; cases h3; exact ⟨⟨rfl, rfl⟩, rfl⟩

theorem pair_none {p : P α} {q : P β} {s : Str} :
    pair p q s = none ↔ p s = none ∨ ∃ a m, p s = some (a, m) ∧ q m = none := by
  unfold pair
  cases h : p s with
  | none => simp
  | some x =>
    obtain ⟨a', m⟩ := x
    simp only
    cases h2 : q m with
    | none => simp only [true_iff]; exact Or.inr ⟨a', m, rfl, h2⟩
    | some y =>
      simp only [Option.some.injEq, Prod.mk.injEq, reduceCtorEq, false_iff, false_or]
      rintro ⟨_, _, ⟨rfl, rfl⟩, h3⟩
      rw [h2] at h3; cases h3

theorem preceded_some {p : P α} {q : P β} {s r : Str} {b : β} :
    preceded p q s = some (b, r) ↔ ∃ a m, p s = some (a, m) ∧ q m = some (b, r) := by
  unfold preceded
  rw [map_some]
  constructor
  · rintro ⟨x, h, rfl⟩
    obtain ⟨m, h1, h2⟩ := pair_some.1 h
    exact ⟨_, m, h1, h2⟩
  · rintro ⟨a, m, h1, h2⟩
    exact ⟨(a, b), pair_some.2 ⟨m, h1, h2⟩, rfl⟩

theorem preceded_none {p : P α} {q : P β} {s : Str} :
    preceded p q s = none ↔ p s = none ∨ ∃ a m, p s = some (a, m) ∧ q m = none := by
  unfold preceded; rw [map_none, pair_none]

theorem terminated_some {p : P α} {q : P β} {s r : Str} {a : α} :
    terminated p q s = some (a, r) ↔ ∃ b m, p s = some (a, m) ∧ q m = some (b, r) := by
  unfold terminated
  rw [map_some]
  constructor
  · rintro ⟨x, h, rfl⟩
    obtain ⟨m, h1, h2⟩ := pair_some.1 h
    exact ⟨_, m, h1, h2⟩
  · rintro ⟨b, m, h1, h2⟩
    exact ⟨(a, b), pair_some.2 ⟨m, h1, h2⟩, rfl⟩

theorem terminated_none {p : P α} {q : P β} {s : Str} :
    terminated p q s = none ↔ p s = none ∨ ∃ a m, p s = some (a, m) ∧ q m = none := by
  unfold terminated; rw [map_none, pair_none]

theorem delimited_some {p : P α} {q : P β} {t : P γ} {s r : Str} {b : β} :
    delimited p q t s = some (b, r) ↔ ∃ a c m n, p s = some (a, m) ∧ q m = some (b, n) ∧ t n = some (c, r) := by
  unfold delimited
  rw [preceded_some]
  constructor
  · rintro ⟨a, m, h1, h2⟩
    obtain ⟨c, n, h3, h4⟩ := terminated_some.1 h2
    exact ⟨a, c, m, n, h1, h3, h4⟩
  · rintro ⟨a, c, m, n, h1, h3, h4⟩
    exact ⟨a, m, h1, terminated_some.2 ⟨c, n, h3, h4⟩⟩

theorem alt_some {p q : P α} {s : Str} {x : α × Str} : alt p q s = some x ↔ p s = some x ∨ (p s = none ∧ q s = some x) := by
  unfold alt
  cases h : p s <;> simp

theorem alt_none {p q : P α} {s : Str} : alt p q s = none ↔ p s = none ∧ q s = none := by
  unfold alt
  cases h : p s <;> simp

theorem opt_some {p : P α} {s r : Str} {o : Option α} :
    opt p s = some (o, r) ↔ (∃ a, o = some a ∧ p s = some (a, r)) ∨ (o = none ∧ r = s ∧ p s = none) := by
  unfold opt
  cases h : p s with
  | none =>
    simp only [Option.some.injEq, Prod.mk.injEq, reduceCtorEq, and_false, exists_false, false_or, and_true]
    constructor
    · rintro ⟨rfl, rfl⟩; exact ⟨rfl, rfl⟩
    · rintro ⟨rfl, rfl⟩; exact ⟨rfl, rfl⟩
  | some x =>
    obtain ⟨a, r'⟩ := x
    simp
    constructor
    · rintro ⟨rfl, rfl⟩; exact ⟨a, rfl, rfl, rfl⟩
    · rintro ⟨_, rfl, rfl, rfl⟩; exact ⟨rfl, rfl⟩

theorem verify_some {p : P α} {f : α → Bool} {s r : Str} {a : α} :
    verify p f s = some (a, r) ↔ p s = some (a, r) ∧ f a = true := by
  unfold verify
  cases h : p s with
  | none => simp
  | some x =>
    obtain ⟨a', r'⟩ := x
    simp
    constructor
    · rintro ⟨h1, rfl, rfl⟩; exact ⟨⟨rfl, rfl⟩, h1⟩
    · rintro ⟨⟨rfl, rfl⟩, h1⟩; exact ⟨h1, rfl, rfl⟩

theorem verify_none {p : P α} {f : α → Bool} {s : Str} :
    verify p f s = none ↔ p s = none ∨ ∃ a r, p s = some (a, r) ∧ f a = false := by
  unfold verify
  cases h : p s with
  | none => simp
  | some x => obtain ⟨a', r'⟩ := x; simp

theorem value_some {b : β} {p : P α} {s r : Str} {b' : β} : value b p s = some (b', r) ↔ ∃ a, p s = some (a, r) ∧ b = b' := map_some

theorem value_none {b : β} {p : P α} {s : Str} : value b p s = none ↔ p s = none := map_none

theorem oneOf_some {cs : List Char} {s r : Str} {c : Char} : oneOf cs s = some (c, r) ↔ c ∈ cs ∧ s = c :: r := by
  unfold oneOf
  cases s with
  | nil => simp
  | cons d t =>
    simp only [List.contains_iff_mem, List.cons.injEq]
    split
    · rename_i h
      simp only [Option.some.injEq, Prod.mk.injEq]
      constructor
      · rintro ⟨rfl, rfl⟩; exact ⟨h, rfl, rfl⟩
      · rintro ⟨_, rfl, rfl⟩; exact ⟨rfl, rfl⟩
    · rename_i h
      simp only [reduceCtorEq, false_iff]
      rintro ⟨h2, rfl, rfl⟩; exact h h2

theorem oneOf_none {cs : List Char} {s : Str} : oneOf cs s = none ↔ ∀ c ∈ s.head?, c ∉ cs := by
  unfold oneOf
  cases s <;> simp

theorem oneOf_consumes (cs : List Char) : Consumes (oneOf cs) := by
  intro s a r h
  obtain ⟨_, rfl⟩ := oneOf_some.1 h
  simp

theorem map_consumes {f : α → β} {p : P α} (h : Consumes p) : Consumes (map f p) := by
  intro s b r hs
  obtain ⟨a, h1, _⟩ := map_some.1 hs
  exact h s a r h1

theorem value_consumes {b : β} {p : P α} (h : Consumes p) : Consumes (value b p) := map_consumes h

theorem pair_consumes {p : P α} {q : P β} (hp : Consumes p) (hq : Shrinks q) : Consumes (pair p q) := by
  intro s x r hs
  obtain ⟨m, h1, h2⟩ := pair_some.1 hs
  have := hp s _ m h1
  have := hq m _ r h2
  omega

theorem alt_consumes {p q : P α} (hp : Consumes p) (hq : Consumes q) : Consumes (alt p q) := by
  intro s x r hs
  rcases alt_some.1 hs with h | ⟨_, h⟩
  · exact hp _ _ _ h
  · exact hq _ _ _ h

theorem verify_consumes {p : P α} {f : α → Bool} (hp : Consumes p) : Consumes (verify p f) := by
  intro s x r hs
  exact hp _ _ _ (verify_some.1 hs).1

theorem opt_shrinks {p : P α} (hp : Shrinks p) : Shrinks (opt p) := by
  intro s x r hs
  rcases opt_some.1 hs with ⟨a, _, h⟩ | ⟨_, rfl, _⟩
  · exact hp _ _ _ h
  · exact Nat.le_refl _

/-- A chain of successful parses. -/
inductive Chain (p : P α) : Str → List α → Str → Prop
  | nil (s : Str) : Chain p s [] s
  | cons {s m r : Str} {a : α} {as : List α} : p s = some (a, m) → Chain p m as r → Chain p s (a :: as) r

theorem many0Loop_iff {p : P α} (hp : Consumes p) : ∀ (fuel : Nat) (s : Str), s.length < fuel → ∀ (as : List α) (r : Str),
    many0Loop p fuel s = some (as, r) ↔ Chain p s as r ∧ p r = none
  | 0, s, h, _, _ => by omega
  | fuel + 1, s, h, as, r => by
    rw [many0Loop]
    cases h1 : p s with
    | none =>
      simp only [Option.some.injEq, Prod.mk.injEq]
      constructor
      · rintro ⟨rfl, rfl⟩; exact ⟨.nil s, h1⟩
      · rintro ⟨hc, _⟩
        cases hc with
        | nil => exact ⟨rfl, rfl⟩
        | cons h3 => rw [h1] at h3; cases h3
    | some x =>
      obtain ⟨a, m⟩ := x
      have hlt := hp s a m h1
      have hne : ¬ (m.length == s.length) = true := by simp; omega
      simp only [hne, if_false, Bool.false_eq_true]
      have ih := many0Loop_iff hp fuel m (by omega)
      constructor
      · intro h2
        cases h3 : many0Loop p fuel m with
        | none => rw [h3] at h2; cases h2
        | some y =>
          obtain ⟨as', r'⟩ := y
          rw [h3] at h2
          simp only [Option.some.injEq, Prod.mk.injEq] at h2
          obtain ⟨rfl, rfl⟩ := h2
          obtain ⟨h4, h5⟩ := (ih as' r').1 h3
          exact ⟨.cons h1 h4, h5⟩
      · rintro ⟨hc, h2⟩
        cases hc with
        | nil => rw [h1] at h2; cases h2
        | cons h3 h4 =>
          rw [h1] at h3
          cases h3
          rw [(ih _ r).2 ⟨h4, h2⟩]

theorem many0_iff {p : P α} (hp : Consumes p) {s r : Str} {as : List α} : many0 p s = some (as, r) ↔ Chain p s as r ∧ p r = none :=
  many0Loop_iff hp _ s (Nat.lt_succ_self _) as r

theorem chain_total {p : P α} (hp : Consumes p) : ∀ (k : Nat) (s : Str), s.length ≤ k → ∃ as r, Chain p s as r ∧ p r = none
  | k, s, h => by
    cases h1 : p s with
    | none => exact ⟨[], s, .nil s, h1⟩
    | some x =>
      obtain ⟨a, m⟩ := x
      have := hp s a m h1
      match k, h with
      | 0, h => omega
      | k + 1, h =>
        obtain ⟨as, r, h2, h3⟩ := chain_total hp k m (by omega)
        exact ⟨a :: as, r, .cons h1 h2, h3⟩

/-- `many0` of a consuming parser never fails. -/
theorem many0_total {p : P α} (hp : Consumes p) (s : Str) : ∃ as r, many0 p s = some (as, r) := by
  obtain ⟨as, r, h⟩ := chain_total hp s.length s (Nat.le_refl _)
  exact ⟨as, r, (many0_iff hp).2 h⟩

theorem chain_shrinks {p : P α} (hp : Shrinks p) {s r : Str} {as : List α} (h : Chain p s as r) : r.length ≤ s.length := by
  induction h with
  | nil => exact Nat.le_refl _
  | cons h1 _ ih => have := hp _ _ _ h1; omega

theorem many0_shrinks {p : P α} (hp : Consumes p) : Shrinks (many0 p) := fun _ _ _ h =>
  chain_shrinks hp.shrinks ((many0_iff hp).1 h).1

theorem many1_iff {p : P α} (hp : Consumes p) {s r : Str} {as : List α} :
    many1 p s = some (as, r) ↔ as ≠ [] ∧ Chain p s as r ∧ p r = none := by
  unfold many1
  rw [map_some]
  constructor
  · rintro ⟨x, h, rfl⟩
    obtain ⟨m, h1, h2⟩ := pair_some.1 h
    obtain ⟨h3, h4⟩ := (many0_iff hp).1 h2
    exact ⟨by simp, .cons h1 h3, h4⟩
  · rintro ⟨hne, hc, h⟩
    cases hc with
    | nil => exact absurd rfl hne
    | cons h1 h2 => exact ⟨(_, _), pair_some.2 ⟨_, h1, (many0_iff hp).2 ⟨h2, h⟩⟩, rfl⟩

theorem many1_consumes {p : P α} (hp : Consumes p) : Consumes (many1 p) := by
  intro s as r h
  obtain ⟨hne, hc, _⟩ := (many1_iff hp).1 h
  cases hc with
  | nil => exact absurd rfl hne
  | cons h1 h2 =>
    have := hp _ _ _ h1
    have := chain_shrinks hp.shrinks h2
    omega

theorem sepLoop_eq {sep : P β} {p : P α} (hs : Consumes sep) : ∀ (fuel : Nat) (s : Str), s.length < fuel → Shrinks p →
    ∀ as r, sepLoop sep p fuel s = some (as, r) ↔ Chain (preceded sep p) s as r ∧ preceded sep p r = none
  | 0, s, h, _, _, _ => by omega
  | fuel + 1, s, h, hp, as, r => by
    rw [sepLoop]
    cases h1 : sep s with
    | none =>
      have hn : preceded sep p s = none := preceded_none.2 (Or.inl h1)
      simp only [Option.some.injEq, Prod.mk.injEq]
      constructor
      · rintro ⟨rfl, rfl⟩; exact ⟨.nil s, hn⟩
      · rintro ⟨hc, _⟩
        cases hc with
        | nil => exact ⟨rfl, rfl⟩
        | cons h3 => rw [hn] at h3; cases h3
    | some x =>
      obtain ⟨b, m⟩ := x
      have hlt := hs s b m h1
      have hne : ¬ (m.length == s.length) = true := by simp; omega
      simp only [hne, if_false, Bool.false_eq_true]
      cases h2 : p m with
      | none =>
        have hn : preceded sep p s = none := preceded_none.2 (Or.inr ⟨b, m, h1, h2⟩)
        simp only [Option.some.injEq, Prod.mk.injEq]
        constructor
        · rintro ⟨rfl, rfl⟩; exact ⟨.nil s, hn⟩
        · rintro ⟨hc, _⟩
          cases hc with
          | nil => exact ⟨rfl, rfl⟩
          | cons h3 => rw [hn] at h3; cases h3
      | some y =>
        obtain ⟨a, m'⟩ := y
        have hle := hp m a m' h2
        have h0 : preceded sep p s = some (a, m') := preceded_some.2 ⟨b, m, h1, h2⟩
        have ih := sepLoop_eq hs fuel m' (by omega) hp
        simp only
        constructor
        · intro h4
          cases h3 : sepLoop sep p fuel m' with
          | none => rw [h3] at h4; cases h4
          | some y =>
            obtain ⟨as', r'⟩ := y
            rw [h3] at h4
            simp only [Option.some.injEq, Prod.mk.injEq] at h4
            obtain ⟨rfl, rfl⟩ := h4
            obtain ⟨h5, h6⟩ := (ih as' r').1 h3
            exact ⟨.cons h0 h5, h6⟩
        · rintro ⟨hc, h4⟩
          cases hc with
          | nil => rw [h0] at h4; cases h4
          | cons h5 h6 =>
            rw [h0] at h5
            cases h5
            rw [(ih _ r).2 ⟨h6, h4⟩]

theorem separatedList1_iff {sep : P β} {p : P α} (hs : Consumes sep) (hp : Shrinks p) {s r : Str} {as : List α} :
    separatedList1 sep p s = some (as, r) ↔ ∃ a as' m, as = a :: as' ∧ p s = some (a, m) ∧ Chain (preceded sep p) m as' r ∧
      preceded sep p r = none := by
  unfold separatedList1
  cases h : p s with
  | none => simp
  | some x =>
    obtain ⟨a, m⟩ := x
    simp only
    cases h1 : sepLoop sep p (m.length + 1) m with
    | none =>
      simp only [Option.some.injEq, Prod.mk.injEq, reduceCtorEq, false_iff]
      rintro ⟨a', as', m', rfl, ⟨rfl, rfl⟩, h2⟩
      rw [(sepLoop_eq hs _ m (Nat.lt_succ_self _) hp as' r).2 h2] at h1
      cases h1
    | some y =>
      obtain ⟨as1, r1⟩ := y
      simp only [Option.some.injEq, Prod.mk.injEq]
      constructor
      · rintro ⟨rfl, rfl⟩
        exact ⟨a, as1, m, rfl, ⟨rfl, rfl⟩, (sepLoop_eq hs _ m (Nat.lt_succ_self _) hp as1 r1).1 h1⟩
      · rintro ⟨a', as', m', rfl, ⟨rfl, rfl⟩, h2⟩
        rw [(sepLoop_eq hs _ m (Nat.lt_succ_self _) hp as' r).2 h2] at h1
        cases h1
        exact ⟨rfl, rfl⟩

theorem preceded_consumes {p : P α} {q : P β} (hp : Consumes p) (hq : Shrinks q) : Consumes (preceded p q) :=
  map_consumes (pair_consumes hp hq)

theorem separatedList1_consumes {sep : P β} {p : P α} (hs : Consumes sep) (hp : Consumes p) : Consumes (separatedList1 sep p) := by
  intro s as r h
  obtain ⟨a, as', m, rfl, h1, h2, _⟩ := (separatedList1_iff hs hp.shrinks).1 h
  have := hp _ _ _ h1
  have := chain_shrinks (preceded_consumes hs hp.shrinks).shrinks h2
  omega

theorem allConsuming_some {p : P α} {s : Str} {a : α} : allConsuming p s = some a ↔ p s = some (a, []) := by
  unfold allConsuming
  cases h : p s with
  | none => simp
  | some x =>
    obtain ⟨a', r⟩ := x
    simp
    tauto

end P
end Dandy
