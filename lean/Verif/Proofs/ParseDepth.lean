import Verif.Model.ParseDepth
import Verif.Spec.ParseDepth
import Verif.Proofs.RegexParser
/-! # Recursion of the parser of regular expressions -/

namespace Dandy
open RegexParser

/-! ## Nesting, read from the right -/

/-- The nesting of a text without escapes. -/
def upM : Str → Nat
  | [] => 0
  | c :: r => if c = '(' then upM r + 1 else if c = ')' then upM r - 1 else upM r

theorem upM_iff (k : Nat) (l : Str) : k + 1 ≤ upM l ↔ ∃ p, p <+: l ∧ p.count ')' + (k + 1) ≤ p.count '(' := by
  induction l generalizing k with
  | nil =>
    simp only [upM]
    refine ⟨fun h => by omega, ?_⟩
    rintro ⟨p, hp, h⟩
    rw [List.prefix_nil] at hp
    subst hp
    simp at h
  | cons c r ih =>
    unfold upM
    have key : (∃ p, p <+: c :: r ∧ p.count ')' + (k + 1) ≤ p.count '(') ↔
        ∃ p, p <+: r ∧ (c :: p).count ')' + (k + 1) ≤ (c :: p).count '(' := by
      constructor
      · rintro ⟨p, hp, h⟩
        cases p with
        | nil => simp at h
        | cons a p =>
          obtain ⟨rfl, hp'⟩ := List.cons_prefix_cons.1 hp
          exact ⟨p, hp', h⟩
      · rintro ⟨p, hp, h⟩
        exact ⟨c :: p, List.cons_prefix_cons.2 ⟨rfl, hp⟩, h⟩
    rw [key]
    split
    · next hc =>
      subst hc
      have e : ∀ p : Str, (('(' :: p).count ')' + (k + 1) ≤ ('(' :: p).count '(') ↔ p.count ')' + k ≤ p.count '(' := by
        intro p
        rw [List.count_cons_self, List.count_cons_of_ne (by decide)]
        omega
      simp only [e]
      cases k with
      | zero => simp only [Nat.zero_add, Nat.le_add_left, true_iff]; exact ⟨[], List.nil_prefix, by simp⟩
      | succ k => rw [← ih k]; omega
    · split
      · next hc =>
        subst hc
        have e : ∀ p : Str, ((')' :: p).count ')' + (k + 1) ≤ (')' :: p).count '(') ↔ p.count ')' + (k + 1 + 1) ≤ p.count '(' := by
          intro p
          rw [List.count_cons_self, List.count_cons_of_ne (by decide)]
          omega
        simp only [e]
        rw [← ih (k + 1)]
        omega
      · next h1 h2 =>
        have e : ∀ p : Str, ((c :: p).count ')' + (k + 1) ≤ (c :: p).count '(') ↔ p.count ')' + (k + 1) ≤ p.count '(' := by
          intro p
          rw [List.count_cons_of_ne h1, List.count_cons_of_ne h2]
        simp only [e]
        exact ih k

theorem le_foldr_max (k : Nat) (l : List Nat) : k + 1 ≤ l.foldr max 0 ↔ ∃ x ∈ l, k + 1 ≤ x := by
  induction l with
  | nil => simp
  | cons a l ih => rw [List.foldr_cons]; simp only [List.mem_cons, exists_eq_or_imp, ← ih]; omega

/-- The nesting of a text, escapes included. -/
def up (s : Str) : Nat := upM (marks s)

theorem nesting_eq (s : Str) : nesting s = up s := by
  have key : ∀ k, k + 1 ≤ nesting s ↔ k + 1 ≤ up s := by
    intro k
    unfold nesting up
    rw [le_foldr_max, upM_iff]
    simp only [List.mem_map, List.mem_inits, exists_exists_and_eq_and]
    constructor
    · rintro ⟨p, hp, h⟩; exact ⟨p, hp, by omega⟩
    · rintro ⟨p, hp, h⟩; exact ⟨p, hp, by omega⟩
  apply Nat.le_antisymm
  · cases h : nesting s with
    | zero => omega
    | succ k => exact (key k).1 (by omega)
  · cases h : up s with
    | zero => omega
    | succ k => exact (key k).2 (by omega)

@[simp] theorem up_nil : up [] = 0 := rfl

theorem marks_cons {c : Char} (hc : c ≠ '\\') (r : Str) : marks (c :: r) = c :: marks r := by
  rw [marks]
  · rintro rfl; exact absurd rfl hc
  · rintro d l rfl; exact absurd rfl hc

theorem up_open (r : Str) : up ('(' :: r) = up r + 1 := by
  unfold up
  rw [marks_cons (by decide)]
  simp [upM]

theorem up_close (r : Str) : up (')' :: r) = up r - 1 := by
  unfold up
  rw [marks_cons (by decide)]
  simp [upM]

theorem up_other {c : Char} (h1 : c ≠ '(') (h2 : c ≠ ')') (h3 : c ≠ '\\') (r : Str) : up (c :: r) = up r := by
  unfold up
  rw [marks_cons h3]
  simp [upM, h1, h2]

theorem up_escape (c : Char) (r : Str) : up ('\\' :: c :: r) = up r := by
  unfold up
  rw [marks]

/-- A closed piece of text: what follows is nested as if the piece were not there. -/
def Neutral (u : Str) : Prop := ∀ r, up (u ++ r) = max (up u) (up r)

theorem neutral_nil : Neutral [] := fun r => by simp

theorem Neutral.append {u v : Str} (hu : Neutral u) (hv : Neutral v) : Neutral (u ++ v) := by
  intro r
  rw [List.append_assoc, hu, hv, hu v]
  omega

theorem Neutral.paren {u : Str} (hu : Neutral u) : Neutral ('(' :: (u ++ [')'])) ∧ up ('(' :: (u ++ [')'])) = up u + 1 := by
  have e : ∀ r, up ('(' :: (u ++ [')']) ++ r) = max (up u + 1) (up r) := by
    intro r
    rw [List.cons_append, List.append_assoc, up_open, hu, List.singleton_append, up_close]
    omega
  have e0 := e []
  rw [List.append_nil, up_nil] at e0
  exact ⟨fun r => by rw [e, e0]; omega, by omega⟩

theorem neutral_plain {u : Str} (h : ∀ c ∈ u, c ≠ '(' ∧ c ≠ ')' ∧ c ≠ '\\') : Neutral u ∧ up u = 0 := by
  have e : ∀ r, up (u ++ r) = up r := by
    intro r
    induction u with
    | nil => rfl
    | cons c u ih =>
      rw [List.forall_mem_cons] at h
      rw [List.cons_append, up_other h.1.1 h.1.2.1 h.1.2.2, ih h.2]
  have e0 := e []
  rw [List.append_nil, up_nil] at e0
  exact ⟨fun r => by rw [e, e0]; omega, e0⟩

theorem neutral_escape {c : Char} {u : Str} (h : ∀ c ∈ u, c ≠ '(' ∧ c ≠ ')' ∧ c ≠ '\\') : Neutral ('\\' :: c :: u) ∧ up ('\\' :: c :: u) = 0 := by
  obtain ⟨h1, h2⟩ := neutral_plain h
  refine ⟨fun r => ?_, by rw [up_escape, h2]⟩
  rw [List.cons_append, List.cons_append, up_escape, up_escape, h1]

/-! ## Bounds for a measure of texts -/

/-- A measure `m` of texts, and what is known (`W u k`) of a piece `u` consumed with nesting `k`. -/
structure Meas (m : Str → Nat) (W : Str → Nat → Prop) : Prop where
  nil : W [] 0
  append : ∀ {u v j k}, W u j → W v k → W (u ++ v) (max j k)
  rest : ∀ {u k}, W u k → ∀ r, m r ≤ m (u ++ r)
  paren : ∀ {u k}, W u k → W ('(' :: (u ++ [')'])) (k + 1)
  opens : ∀ r, m r + 1 ≤ m ('(' :: r)
  sign : ∀ c, c = '+' ∨ c = '*' ∨ c = '|' → W [c] 0

variable {α β γ : Type} {m : Str → Nat} {W : Str → Nat → Prop} {core : Str} {cl : Str → Nat}

/-- The bounds, for a parser that is itself `e` levels deeper than the text. -/
structure Nest (m : Str → Nat) (W : Str → Nat → Prop) (core : Str) (e : Nat) (p : PD α) : Prop where
  le : ∀ s, s <:+ core → p.depth s ≤ m s + e
  ok : ∀ s a r, s <:+ core → p.run s = some (a, r) → ∃ u k, s = u ++ r ∧ W u k ∧ k + e ≤ p.depth s

theorem Nest.map {p : PD α} {e : Nat} (hp : Nest m W core e p) (f : α → β) : Nest m W core e (PD.map f p) where
  le := hp.le
  ok s a r hs h := by
    simp only [PD.map, P.map] at h
    split at h
    · simp at h
    · next a' r' h1 =>
      simp only [Option.some.injEq, Prod.mk.injEq] at h
      obtain ⟨_, rfl⟩ := h
      exact hp.ok s _ _ hs h1

theorem suffix_of_eq {s u r core : Str} (h : s = u ++ r) (hs : s <:+ core) : r <:+ core :=
  (h ▸ List.suffix_append u r : r <:+ s).trans hs

theorem Nest.pair (hm : Meas m W) {p : PD α} {q : PD β} (hp : Nest m W core 0 p) (hq : Nest m W core 0 q) : Nest m W core 0 (PD.pair p q) where
  le s hs := by
    simp only [PD.pair, PD.after]
    have h1 := hp.le s hs
    split
    · omega
    · next a r h =>
      obtain ⟨u, k, rfl, hw, _⟩ := hp.ok s a r hs h
      have h2 := hq.le r (suffix_of_eq rfl hs)
      have h3 := hm.rest hw r
      omega
  ok s x r hs h := by
    simp only [PD.pair, P.pair] at h
    split at h
    · simp at h
    · next a r1 h1 =>
      split at h
      · simp at h
      · next b r2 h2 =>
        simp only [Option.some.injEq, Prod.mk.injEq] at h
        obtain ⟨_, rfl⟩ := h
        obtain ⟨u, j, e1, hu, hj⟩ := hp.ok s a r1 hs h1
        obtain ⟨v, k, e2, hv, hk⟩ := hq.ok r1 b r2 (suffix_of_eq e1 hs) h2
        refine ⟨u ++ v, max j k, by rw [e1, e2, List.append_assoc], hm.append hu hv, ?_⟩
        simp only [PD.pair, PD.after, h1]
        omega

theorem Nest.alt {p q : PD α} (hp : Nest m W core 0 p) (hq : Nest m W core 0 q) : Nest m W core 0 (PD.alt p q) where
  le s hs := by
    simp only [PD.alt]
    have h1 := hp.le s hs
    have h2 := hq.le s hs
    split <;> omega
  ok s x r hs h := by
    simp only [PD.alt, P.alt] at h
    split at h
    · next h1 =>
      obtain ⟨u, k, e, hw, hk⟩ := hq.ok s x r hs h
      refine ⟨u, k, e, hw, ?_⟩
      simp only [PD.alt, h1, Option.isNone_none, if_true]
      omega
    · next y h1 =>
      simp only [Option.some.injEq] at h
      subst h
      obtain ⟨u, k, e, hw, hk⟩ := hp.ok s x r hs h1
      refine ⟨u, k, e, hw, ?_⟩
      simp only [PD.alt]
      omega

theorem Nest.many0 (hm : Meas m W) {p : PD α} (hp : Nest m W core 0 p) : Nest m W core 0 (PD.many0 p) := by
  have le : ∀ fuel s, s <:+ core → PD.many0Depth p fuel s ≤ m s := by
    intro fuel
    induction fuel with
    | zero => intro s _; simp [PD.many0Depth]
    | succ fuel ih =>
      intro s hs
      simp only [PD.many0Depth, PD.after]
      have h1 := hp.le s hs
      split
      · omega
      · next a r h =>
        obtain ⟨u, k, rfl, hw, _⟩ := hp.ok s a r hs h
        have h2 := ih r (suffix_of_eq rfl hs)
        have h3 := hm.rest hw r
        split <;> omega
  have ok : ∀ fuel s a r, s <:+ core → P.many0Loop p.run fuel s = some (a, r) → ∃ u k, s = u ++ r ∧ W u k ∧ k ≤ PD.many0Depth p fuel s := by
    intro fuel
    induction fuel with
    | zero => intro s a r _ h; simp [P.many0Loop] at h
    | succ fuel ih =>
      intro s a r hs h
      simp only [P.many0Loop] at h
      simp only [PD.many0Depth, PD.after]
      split at h
      · next h1 =>
        simp only [Option.some.injEq, Prod.mk.injEq] at h
        exact ⟨[], 0, by simp [h.2], hm.nil, by omega⟩
      · next b r1 h1 =>
        split at h
        · simp at h
        · next hne =>
          split at h
          · simp at h
          · next as r2 h2 =>
            simp only [Option.some.injEq, Prod.mk.injEq] at h
            obtain ⟨_, rfl⟩ := h
            obtain ⟨u, j, e1, hu, hj⟩ := hp.ok s b r1 hs h1
            obtain ⟨v, k, e2, hv, hk⟩ := ih r1 as r2 (suffix_of_eq e1 hs) h2
            refine ⟨u ++ v, max j k, by rw [e1, e2, List.append_assoc], hm.append hu hv, ?_⟩
            simp only [h1, hne, if_false, Bool.false_eq_true]
            omega
  exact ⟨fun s hs => by simpa [PD.many0] using le _ s hs, fun s a r hs h => by simpa [PD.many0] using ok _ s a r hs h⟩

theorem Nest.many1 (hm : Meas m W) {p : PD α} (hp : Nest m W core 0 p) : Nest m W core 0 (PD.many1 p) :=
  (Nest.pair hm hp (hp.many0 hm)).map _

theorem Nest.separatedList1 (hm : Meas m W) {p : PD α} {sep : PD β} (hs : Nest m W core 0 sep) (hp : Nest m W core 0 p) :
    Nest m W core 0 (PD.separatedList1 sep p) := by
  have le : ∀ fuel s, s <:+ core → PD.sepDepth sep p fuel s ≤ m s := by
    intro fuel
    induction fuel with
    | zero => intro s _; simp [PD.sepDepth]
    | succ fuel ih =>
      intro s hc
      simp only [PD.sepDepth, PD.after]
      have h1 := hs.le s hc
      split
      · omega
      · next a r h =>
        obtain ⟨u, k, rfl, hw, _⟩ := hs.ok s a r hc h
        have hc' : r <:+ core := suffix_of_eq rfl hc
        have h2 := hp.le r hc'
        have h3 := hm.rest hw r
        split
        · omega
        · split
          · omega
          · next b r' h' =>
            obtain ⟨v, j, rfl, hv, _⟩ := hp.ok r b r' hc' h'
            have h4 := ih r' (suffix_of_eq rfl hc')
            have h5 := hm.rest hv r'
            omega
  have ok : ∀ fuel s a r, s <:+ core → P.sepLoop sep.run p.run fuel s = some (a, r) →
      ∃ u k, s = u ++ r ∧ W u k ∧ k ≤ PD.sepDepth sep p fuel s := by
    intro fuel
    induction fuel with
    | zero => intro s a r _ h; simp [P.sepLoop] at h
    | succ fuel ih =>
      intro s a r hc h
      simp only [P.sepLoop] at h
      simp only [PD.sepDepth, PD.after]
      split at h
      · next h1 =>
        simp only [Option.some.injEq, Prod.mk.injEq] at h
        exact ⟨[], 0, by simp [h.2], hm.nil, by omega⟩
      · next b r1 h1 =>
        split at h
        · simp at h
        · next hne =>
          split at h
          · next h2 =>
            simp only [Option.some.injEq, Prod.mk.injEq] at h
            exact ⟨[], 0, by simp [h.2], hm.nil, by omega⟩
          · next x r2 h2 =>
            split at h
            · simp at h
            · next as r3 h3 =>
              simp only [Option.some.injEq, Prod.mk.injEq] at h
              obtain ⟨_, rfl⟩ := h
              obtain ⟨u, i, e1, hu, hi⟩ := hs.ok s b r1 hc h1
              have hc1 := suffix_of_eq e1 hc
              obtain ⟨v, j, e2, hv, hj⟩ := hp.ok r1 x r2 hc1 h2
              obtain ⟨w, k, e3, hw, hk⟩ := ih r2 as r3 (suffix_of_eq e2 hc1) h3
              refine ⟨u ++ (v ++ w), max i (max j k), by rw [e1, e2, e3]; simp, hm.append hu (hm.append hv hw), ?_⟩
              simp only [h1, hne, if_false, Bool.false_eq_true, h2]
              omega
  constructor
  · intro s hc
    simp only [PD.separatedList1, PD.after]
    have h1 := hp.le s hc
    split
    · omega
    · next a r h =>
      obtain ⟨u, k, rfl, hw, _⟩ := hp.ok s a r hc h
      have h2 := le (r.length + 1) r (suffix_of_eq rfl hc)
      have h3 := hm.rest hw r
      omega
  · intro s x r hc h
    simp only [PD.separatedList1, P.separatedList1] at h
    split at h
    · simp at h
    · next a r1 h1 =>
      split at h
      · simp at h
      · next as r2 h2 =>
        simp only [Option.some.injEq, Prod.mk.injEq] at h
        obtain ⟨_, rfl⟩ := h
        obtain ⟨u, j, e1, hu, hj⟩ := hp.ok s a r1 hc h1
        obtain ⟨v, k, e2, hv, hk⟩ := ok _ r1 as r2 (suffix_of_eq e1 hc) h2
        refine ⟨u ++ v, max j k, by rw [e1, e2, List.append_assoc], hm.append hu hv, ?_⟩
        simp only [PD.separatedList1, PD.after, h1]
        omega

theorem Nest.leaf {p : P α} (h : ∀ s a r, s <:+ core → p s = some (a, r) → ∃ u, s = u ++ r ∧ W u 0) : Nest m W core 0 (PD.leaf p) where
  le s _ := by simp [PD.leaf]
  ok s a r hs h1 := by
    obtain ⟨u, e, hw⟩ := h s a r hs h1
    exact ⟨u, 0, e, hw, by simp⟩

theorem oneOf_some {cs : List Char} {s r : Str} {a : Char} (h : P.oneOf cs s = some (a, r)) : s = a :: r ∧ a ∈ cs := by
  unfold P.oneOf at h
  split at h
  · simp at h
  · next c t =>
    split at h
    · next hc =>
      simp only [Option.some.injEq, Prod.mk.injEq] at h
      obtain ⟨rfl, rfl⟩ := h
      exact ⟨rfl, by simpa using hc⟩
    · simp at h

theorem kleene_piece (hm : Meas m W) {s r : Str} {x : Option Char} (h : P.opt (P.oneOf ['+', '*']) s = some (x, r)) : ∃ u, s = u ++ r ∧ W u 0 := by
  unfold P.opt at h
  split at h
  · simp only [Option.some.injEq, Prod.mk.injEq] at h
    exact ⟨[], by simp [h.2], hm.nil⟩
  · next a r1 h1 =>
    simp only [Option.some.injEq, Prod.mk.injEq] at h
    obtain ⟨_, rfl⟩ := h
    obtain ⟨e, hc⟩ := oneOf_some h1
    exact ⟨[a], by simp [e], hm.sign a (by simp at hc; tauto)⟩

theorem Nest.parExpr (hm : Meas m W) {p : PD RegexTree} (hp : Nest m W core 1 p) : Nest m W core 0 (RegexD.parExpr p) := by
  refine (Nest.pair hm ?_ (Nest.leaf fun s a r _ h => kleene_piece hm h)).map _
  constructor
  · intro s hs
    simp only [PD.delimited, PD.preceded, PD.terminated, PD.map, PD.pair, PD.after, PD.leaf]
    split
    · omega
    · next a r h =>
      obtain ⟨e, hc⟩ := oneOf_some h
      simp only [List.mem_singleton] at hc
      subst hc
      have hc : r <:+ core := suffix_of_eq (u := ['(']) (by simpa using e) hs
      have h1 := hp.le r hc
      have h2 := hm.opens r
      rw [e]
      split <;> omega
  · intro s x r hs h
    simp only [PD.delimited, PD.preceded, PD.terminated, PD.map, PD.pair, PD.leaf, P.map, P.pair] at h ⊢
    cases h1 : P.oneOf ['('] s with
    | none => simp [h1] at h
    | some y =>
      obtain ⟨a, r1⟩ := y
      obtain ⟨e1, hc1⟩ := oneOf_some h1
      simp only [List.mem_singleton] at hc1
      subst hc1
      have hc : r1 <:+ core := suffix_of_eq (u := ['(']) (by simpa using e1) hs
      cases h2 : p.run r1 with
      | none => simp [h1, h2] at h
      | some z =>
        obtain ⟨t, r2⟩ := z
        cases h3 : P.oneOf [')'] r2 with
        | none => simp [h1, h2, h3] at h
        | some w =>
          obtain ⟨b, r3⟩ := w
          simp only [h1, h2, h3, Option.some.injEq, Prod.mk.injEq] at h
          obtain ⟨_, rfl⟩ := h
          obtain ⟨e3, hc3⟩ := oneOf_some h3
          simp only [List.mem_singleton] at hc3
          subst hc3
          obtain ⟨u, k, e2, hu, hk⟩ := hp.ok r1 t r2 hc h2
          refine ⟨'(' :: (u ++ [')']), k + 1, by rw [e1, e2, e3]; simp, hm.paren hu, ?_⟩
          simp only [PD.after, h2]
          omega

theorem Nest.expression (hm : Meas m W)
    (hchar : ∀ s a r, s <:+ core → combinatedChar cl s = some (a, r) → ∃ u, s = u ++ r ∧ W u 0) (k : Nat) :
    Nest m W core 1 (RegexD.expression cl k) ∨ k = 0 := by
  induction k with
  | zero => exact .inr rfl
  | succ k ih =>
    left
    have hpar : Nest m W core 0 (RegexD.parExpr (RegexD.expression cl k)) := by
      rcases ih with h | rfl
      · exact h.parExpr hm
      · constructor
        · intro s _
          simp only [RegexD.parExpr, RegexD.expression, PD.delimited, PD.preceded, PD.terminated, PD.map, PD.pair, PD.after, PD.leaf]
          repeat' split
          all_goals omega
        · intro s x r _ h
          simp only [RegexD.parExpr, RegexD.expression, PD.delimited, PD.preceded, PD.terminated, PD.map, PD.pair, PD.leaf, P.map, P.pair] at h
          cases h1 : P.oneOf ['('] s <;> simp [h1] at h
    have halt : Nest m W core 0 (RegexD.alternation cl (RegexD.expression cl k)) := by
      refine (Nest.separatedList1 hm (Nest.leaf fun s a r _ h => ?_) ((Nest.many1 hm (hpar.alt (Nest.leaf hchar))).map _)).map _
      obtain ⟨e, hc⟩ := oneOf_some h
      exact ⟨[a], by simp [e], hm.sign a (by simp at hc; tauto)⟩
    constructor
    · intro s hs
      have := halt.le s hs
      simp only [RegexD.expression]
      omega
    · intro s a r hs h
      obtain ⟨u, j, e, hu, hj⟩ := halt.ok s a r hs h
      exact ⟨u, j, e, hu, by simp only [RegexD.expression]; omega⟩

/-! ## The two measures -/

theorem meas_count : Meas (fun s => s.count '(') (fun _ _ => True) where
  nil := trivial
  append _ _ := trivial
  rest _ r := by simp only [List.count_append]; omega
  paren _ := trivial
  opens r := by simp
  sign _ _ := trivial

theorem meas_up : Meas up (fun u k => Neutral u ∧ up u = k) where
  nil := ⟨neutral_nil, rfl⟩
  append hu hv := ⟨hu.1.append hv.1, by rw [hu.1, hu.2, hv.2]⟩
  rest hu r := by rw [hu.1]; omega
  paren hu := ⟨hu.1.paren.1, by rw [hu.1.paren.2, hu.2]⟩
  opens r := by rw [up_open]
  sign c hc := neutral_plain (by rcases hc with rfl | rfl | rfl <;> decide)

theorem regexChar_piece {s r : Str} {a : RegexChar} (h : regexChar cl s = some (a, r)) :
    ∃ u, s = u ++ r ∧ ((∃ c, u = [c] ∧ (c = '∅' ∨ c = 'ε')) ∨ (∃ t, s = '\\' :: t ∧ t ≠ [] ∧ u = '\\' :: t.take (cl t)) ∨
      (u = s.take (cl s) ∧ ∀ c ∈ s.head?, ¬ IsReserved c ∨ cl s = 0)) := by
  unfold regexChar P.alt emptyLang emptyStr P.value P.map at h
  cases h1 : P.oneOf ['∅'] s with
  | some x =>
    obtain ⟨c, r1⟩ := x
    obtain ⟨e, hc⟩ := oneOf_some h1
    simp only [h1, Option.some.injEq, Prod.mk.injEq] at h
    obtain ⟨_, rfl⟩ := h
    exact ⟨[c], by simp [e], .inl ⟨c, rfl, .inl (by simpa using hc)⟩⟩
  | none =>
    cases h2 : P.oneOf ['ε'] s with
    | some x =>
      obtain ⟨c, r1⟩ := x
      obtain ⟨e, hc⟩ := oneOf_some h2
      simp only [h1, h2, Option.some.injEq, Prod.mk.injEq] at h
      obtain ⟨_, rfl⟩ := h
      exact ⟨[c], by simp [e], .inl ⟨c, rfl, .inr (by simpa using hc)⟩⟩
    | none =>
      simp only [h1, h2] at h
      cases h3 : escapedChar cl s with
      | some x =>
        simp only [h3, Option.some.injEq] at h
        subst h
        unfold escapedChar P.preceded P.map P.pair at h3
        cases h4 : P.oneOf ['\\'] s with
        | none => simp [h4] at h3
        | some y =>
          obtain ⟨c, r1⟩ := y
          obtain ⟨e, hc⟩ := oneOf_some h4
          simp only [List.mem_singleton] at hc
          subst hc
          cases r1 with
          | nil => simp [h4, oneCluster] at h3
          | cons d t =>
            simp only [h4, oneCluster, Option.some.injEq, Prod.mk.injEq] at h3
            obtain ⟨_, rfl⟩ := h3
            exact ⟨'\\' :: (d :: t).take (cl (d :: t)), by rw [e, List.cons_append, List.take_append_drop],
              .inr (.inl ⟨d :: t, e, by simp, rfl⟩)⟩
      | none =>
        simp only [h3] at h
        unfold normalChar P.verify oneCluster at h
        cases s with
        | nil => simp at h
        | cons c t =>
          simp only at h
          split at h
          · next hr =>
            simp only [Option.some.injEq, Prod.mk.injEq] at h
            obtain ⟨_, rfl⟩ := h
            refine ⟨(c :: t).take (cl (c :: t)), (List.take_append_drop _ _).symm, .inr (.inr ⟨rfl, ?_⟩)⟩
            intro c' hc'
            simp only [List.head?_cons, Option.mem_def, Option.some.injEq] at hc'
            subst hc'
            cases hk : cl (c :: t) with
            | zero => exact .inr rfl
            | succ k =>
              left
              rw [hk] at hr
              simp only [List.take_succ_cons, List.headD_cons, Bool.not_eq_true', ← Bool.not_eq_true, reserved_iff] at hr
              exact hr
          · simp at h

theorem combinatedChar_piece (hm : Meas m W)
    (hchar : ∀ s a r, s <:+ core → regexChar cl s = some (a, r) → ∃ u, s = u ++ r ∧ W u 0) :
    ∀ s a r, s <:+ core → combinatedChar cl s = some (a, r) → ∃ u, s = u ++ r ∧ W u 0 := by
  intro s a r hs h
  unfold combinatedChar P.map P.pair at h
  cases h1 : regexChar cl s with
  | none => simp [h1] at h
  | some x =>
    obtain ⟨c, r1⟩ := x
    cases h2 : P.opt (P.oneOf ['+', '*']) r1 with
    | none => simp [h1, h2] at h
    | some y =>
      obtain ⟨o, r2⟩ := y
      simp only [h1, h2, Option.some.injEq, Prod.mk.injEq] at h
      obtain ⟨_, rfl⟩ := h
      obtain ⟨u, e1, hu⟩ := hchar s c r1 hs h1
      obtain ⟨v, e2, hv⟩ := kleene_piece hm h2
      exact ⟨u ++ v, by rw [e1, e2, List.append_assoc], by simpa using hm.append hu hv⟩

theorem nest_count (cl : Str → Nat) (core : Str) (k : Nat) : Nest (fun s => s.count '(') (fun _ _ => True) core 1 (RegexD.expression cl (k + 1)) := by
  refine (Nest.expression (cl := cl) (core := core) meas_count (combinatedChar_piece meas_count fun s a r _ h => ?_) (k + 1)).resolve_right (by omega)
  · obtain ⟨u, e, _⟩ := regexChar_piece h
    exact ⟨u, e, trivial⟩

theorem nest_up (hcl : Segmentation cl) {core : Str} (hn : NoHidden cl core) (k : Nat) :
    Nest up (fun u k => Neutral u ∧ up u = k) core 1 (RegexD.expression cl (k + 1)) := by
  refine (Nest.expression (cl := cl) (core := core) meas_up (combinatedChar_piece meas_up fun s a r hs h => ?_) (k + 1)).resolve_right (by omega)
  · obtain ⟨u, e, h1⟩ := regexChar_piece h
    refine ⟨u, e, ?_⟩
    rcases h1 with ⟨c, rfl, hc⟩ | ⟨t, rfl, hne, rfl⟩ | ⟨rfl, hc⟩
    · exact neutral_plain (by rcases hc with rfl | rfl <;> decide)
    · have ht : t <:+ core := (List.suffix_cons _ _).trans hs
      have := hn t ht
      cases hk : t.take (cl t) with
      | nil =>
        have h1 := hcl.pos t hne
        have h2 := congrArg List.length hk
        have h3 := List.length_pos_iff.2 hne
        simp only [List.length_take, List.length_nil] at h2
        omega
      | cons c u =>
        rw [hk] at this
        exact neutral_escape this
    · have := hn s hs
      cases s with
      | nil => simpa using meas_up.nil
      | cons c t =>
        cases hk : (c :: t).take (cl (c :: t)) with
        | nil => exact meas_up.nil
        | cons d u =>
          have hd : d = c ∧ cl (c :: t) ≠ 0 := by
            cases h0 : cl (c :: t) with
            | zero => simp [h0] at hk
            | succ n =>
              rw [h0] at hk
              simp only [List.take_succ_cons, List.cons.injEq] at hk
              exact ⟨hk.1.symm, by simp⟩
          rw [hk] at this
          refine neutral_plain (List.forall_mem_cons.2 ⟨?_, this⟩)
          rw [hd.1]
          have := (hc c (by simp)).resolve_right hd.2
          refine ⟨?_, ?_, ?_⟩ <;> (rintro rfl; exact this (by simp [IsReserved]))

/-! ## The bound on the nesting is never reached -/

/-- Two parsers do the same on texts of length at most `n`. -/
structure Same (n : Nat) (p q : PD α) : Prop where
  run : ∀ s, s.length ≤ n → p.run s = q.run s
  depth : ∀ s, s.length ≤ n → p.depth s = q.depth s
  shr : ∀ s a r, p.run s = some (a, r) → r.length ≤ s.length

theorem Same.map {n : Nat} {p q : PD α} (h : Same n p q) (f : α → β) : Same n (PD.map f p) (PD.map f q) where
  run s hs := by simp only [PD.map, P.map, h.run s hs]
  depth s hs := h.depth s hs
  shr s a r hr := by
    simp only [PD.map, P.map] at hr
    split at hr
    · simp at hr
    · next h1 =>
      simp only [Option.some.injEq, Prod.mk.injEq] at hr
      exact hr.2 ▸ h.shr _ _ _ h1

theorem Same.pair {n : Nat} {p q : PD α} {p' q' : PD β} (h : Same n p q) (h' : Same n p' q') : Same n (PD.pair p p') (PD.pair q q') where
  run s hs := by
    simp only [PD.pair, P.pair, ← h.run s hs]
    split
    · rfl
    · next h1 =>
      have := h.shr _ _ _ h1
      rw [h'.run _ (by omega)]
  depth s hs := by
    simp only [PD.pair, PD.after, ← h.run s hs, ← h.depth s hs]
    split
    · rfl
    · next h1 =>
      have := h.shr _ _ _ h1
      rw [h'.depth _ (by omega)]
  shr s a r hr := by
    simp only [PD.pair, P.pair] at hr
    split at hr
    · simp at hr
    · next h1 =>
      split at hr
      · simp at hr
      · next h2 =>
        simp only [Option.some.injEq, Prod.mk.injEq] at hr
        have := h.shr _ _ _ h1
        have := h'.shr _ _ _ h2
        rw [← hr.2]
        omega

theorem Same.alt {n : Nat} {p q p' q' : PD α} (h : Same n p q) (h' : Same n p' q') : Same n (PD.alt p p') (PD.alt q q') where
  run s hs := by simp only [PD.alt, P.alt, ← h.run s hs, ← h'.run s hs]
  depth s hs := by simp only [PD.alt, ← h.run s hs, ← h.depth s hs, ← h'.depth s hs]
  shr s a r hr := by
    simp only [PD.alt, P.alt] at hr
    split at hr
    · exact h'.shr _ _ _ hr
    · next h1 => exact h.shr _ _ _ (h1.trans hr)

theorem Same.refl {n : Nat} {p : PD α} (h : ∀ s a r, p.run s = some (a, r) → r.length ≤ s.length) : Same n p p := ⟨fun _ _ => rfl, fun _ _ => rfl, h⟩

theorem Same.leaf {n : Nat} {p : P α} (h : P.Shrinks p) : Same n (PD.leaf p) (PD.leaf p) := Same.refl h

theorem Same.many0 {n : Nat} {p q : PD α} (hc : P.Consumes p.run) (h : Same n p q) : Same n (PD.many0 p) (PD.many0 q) where
  run s hs := many0Loop_congr h.shr h.run _ s hs
  depth s hs := by
    have : ∀ fuel s, s.length ≤ n → PD.many0Depth p fuel s = PD.many0Depth q fuel s := by
      intro fuel
      induction fuel with
      | zero => intro s _; rfl
      | succ fuel ih =>
        intro s hs
        simp only [PD.many0Depth, PD.after, ← h.run s hs, ← h.depth s hs]
        split
        · rfl
        · next h1 =>
          have := h.shr _ _ _ h1
          rw [ih _ (by omega)]
    exact this _ s hs
  shr := P.many0_shrinks hc

theorem Same.separatedList1 {n : Nat} {p q : PD α} {sep : PD β} (hs : P.Consumes sep.run) (hc : P.Consumes p.run)
    (h : Same n p q) : Same n (PD.separatedList1 sep p) (PD.separatedList1 sep q) where
  run s hl := by
    simp only [PD.separatedList1, P.separatedList1, ← h.run s hl]
    split
    · rfl
    · next h1 =>
      have := h.shr _ _ _ h1
      rw [sepLoop_congr hs.shrinks h.shr h.run _ _ (by omega)]
  depth s hl := by
    have key : ∀ fuel s, s.length ≤ n → PD.sepDepth sep p fuel s = PD.sepDepth sep q fuel s := by
      intro fuel
      induction fuel with
      | zero => intro s _; rfl
      | succ fuel ih =>
        intro s hl
        simp only [PD.sepDepth, PD.after]
        cases h1 : sep.run s with
        | none => rfl
        | some x =>
          obtain ⟨a, r⟩ := x
          have h2 := hs.shrinks _ _ _ h1
          simp only [← h.run r (by omega), ← h.depth r (by omega)]
          cases h3 : p.run r with
          | none => rfl
          | some y =>
            obtain ⟨b, r'⟩ := y
            have h4 := h.shr _ _ _ h3
            simp only [ih r' (by omega)]
    simp only [PD.separatedList1, PD.after, ← h.run s hl, ← h.depth s hl]
    split
    · rfl
    · next h1 =>
      have := h.shr _ _ _ h1
      rw [key _ _ (by omega)]
  shr := (P.separatedList1_consumes hs hc).shrinks

theorem RegexD.expression_run (cl : Str → Nat) (k : Nat) : (RegexD.expression cl k).run = RegexParser.expression cl k := by
  induction k with
  | zero => rfl
  | succ k ih =>
    simp only [RegexD.expression, RegexParser.expression, ← ih]
    rfl

theorem RegexD.same (h : Segmentation cl) : ∀ (n k k' : Nat), n < k → n < k' → Same n (RegexD.expression cl k) (RegexD.expression cl k') := by
  intro n
  induction n with
  | zero => exact fun k k' hk hk' => step 0 k k' hk hk' (fun n h => absurd h (by omega))
  | succ n ih => exact fun k k' hk hk' => step (n + 1) k k' hk hk' (fun m hm a b ha hb => by
      have : m = n := by omega
      subst this
      exact ih a b ha hb)
where
  step (n k k' : Nat) (hk : n < k) (hk' : n < k')
      (ih : ∀ m, m + 1 = n → ∀ a b, m < a → m < b → Same m (RegexD.expression cl a) (RegexD.expression cl b)) :
      Same n (RegexD.expression cl k) (RegexD.expression cl k') := by
    obtain ⟨k, rfl⟩ : ∃ e, k = e + 1 := ⟨k - 1, by omega⟩
    obtain ⟨k', rfl⟩ : ∃ e, k' = e + 1 := ⟨k' - 1, by omega⟩
    have hck : P.Consumes (RegexD.expression cl k).run := by rw [RegexD.expression_run]; exact expression_consumes h k
    have hdel : Same n (PD.delimited (PD.leaf (P.oneOf ['('])) (RegexD.expression cl k) (PD.leaf (P.oneOf [')'])))
        (PD.delimited (PD.leaf (P.oneOf ['('])) (RegexD.expression cl k') (PD.leaf (P.oneOf [')']))) := by
      have inner : ∀ m, m + 1 = n → Same m (PD.terminated (RegexD.expression cl k) (PD.leaf (P.oneOf [')'])))
          (PD.terminated (RegexD.expression cl k') (PD.leaf (P.oneOf [')']))) := fun m hm =>
        ((ih m hm k k' (by omega) (by omega)).pair (Same.leaf (P.oneOf_consumes _).shrinks)).map _
      refine ⟨fun s hs => ?_, fun s hs => ?_, (P.preceded_consumes (P.oneOf_consumes _)
        (P.map_consumes (P.pair_consumes hck (P.oneOf_consumes _).shrinks)).shrinks).shrinks⟩
      · simp only [PD.delimited, PD.preceded, PD.map, PD.pair, PD.leaf, P.map, P.pair]
        cases h1 : P.oneOf ['('] s with
        | none => rfl
        | some x =>
          have h2 := P.oneOf_consumes _ _ _ _ h1
          have := (inner (n - 1) (by omega)).run x.2 (by omega)
          simp only [PD.leaf] at this
          simp only [this]
      · simp only [PD.delimited, PD.preceded, PD.map, PD.pair, PD.leaf, PD.after]
        cases h1 : P.oneOf ['('] s with
        | none => rfl
        | some x =>
          have h2 := P.oneOf_consumes _ _ _ _ h1
          have := (inner (n - 1) (by omega)).depth x.2 (by omega)
          simp only [PD.leaf] at this
          simp only [this]
    have hitem : Same n (PD.alt (RegexD.parExpr (RegexD.expression cl k)) (PD.leaf (combinatedChar cl)))
        (PD.alt (RegexD.parExpr (RegexD.expression cl k')) (PD.leaf (combinatedChar cl))) :=
      ((hdel.pair (Same.leaf (P.opt_shrinks (P.oneOf_consumes _).shrinks))).map _).alt
        (Same.leaf (P.map_consumes (P.pair_consumes (P.map_consumes (regexChar_consumes h)) (P.opt_shrinks (P.oneOf_consumes _).shrinks))).shrinks)
    have hic : P.Consumes (PD.alt (RegexD.parExpr (RegexD.expression cl k)) (PD.leaf (combinatedChar cl))).run := itemP_consumes h hck
    have hseq : Same n (RegexD.sequence cl (RegexD.expression cl k)) (RegexD.sequence cl (RegexD.expression cl k')) :=
      ((hitem.pair (hitem.many0 hic)).map _).map _
    have halt := (Same.separatedList1 (sep := PD.leaf (P.oneOf ['|'])) (P.oneOf_consumes _) (sequence_consumes h hck) hseq).map (wrapMultiple .alt)
    refine ⟨fun s hs => halt.run s hs, fun s hs => ?_, halt.shr⟩
    have := halt.depth s hs
    simp only [RegexD.expression, RegexD.alternation]
    rw [this]

/-! ## Trees -/

/-- How deep the results of a parser are, compared with its own recursion. -/
def Tall (f : α → Nat) (c : Nat) (p : PD α) : Prop := ∀ s a r, p.run s = some (a, r) → f a ≤ 4 * p.depth s + c

theorem calls_wrap {f : List RegexTree → RegexTree} (hf : ∀ ts, (f ts).calls = RegexTree.callsMax ts + 1) (ts : List RegexTree) :
    (wrapMultiple f ts).calls ≤ RegexTree.callsMax ts + 1 := by
  unfold wrapMultiple
  split
  · rw [hf]
  · cases ts with
    | nil => simp [RegexTree.calls]
    | cons t ts => simp only [List.headD_cons, RegexTree.callsMax]; omega

theorem calls_kleene (t : RegexTree) (o : Option Char) : (applyKleene (t, o)).calls ≤ t.calls + 2 := by
  unfold applyKleene
  split
  · next h =>
    simp only [Prod.mk.injEq] at h
    obtain ⟨rfl, _⟩ := h
    split <;> simp only [RegexTree.calls, RegexTree.callsMax] <;> omega
  · next h =>
    simp only [Prod.mk.injEq] at h
    obtain ⟨rfl, _⟩ := h
    omega

theorem Tall.many0 {f : α → Nat} {g : List α → Nat} (hn : g [] = 0) (hg : ∀ a as, g (a :: as) = max (f a) (g as)) {c : Nat} {p : PD α}
    (hp : Tall f c p) : Tall g c (PD.many0 p) := by
  have : ∀ fuel s a r, P.many0Loop p.run fuel s = some (a, r) → g a ≤ 4 * PD.many0Depth p fuel s + c := by
    intro fuel
    induction fuel with
    | zero => intro s a r h; simp [P.many0Loop] at h
    | succ fuel ih =>
      intro s a r h
      simp only [P.many0Loop] at h
      simp only [PD.many0Depth, PD.after]
      split at h
      · simp only [Option.some.injEq, Prod.mk.injEq] at h
        rw [← h.1, hn]
        omega
      · next b r1 h1 =>
        split at h
        · simp at h
        · next hne =>
          split at h
          · simp at h
          · next as r2 h2 =>
            simp only [Option.some.injEq, Prod.mk.injEq] at h
            have e1 := hp s b r1 h1
            have e2 := ih r1 as r2 h2
            rw [← h.1, hg]
            simp only [h1, hne, if_false, Bool.false_eq_true]
            omega
  exact fun s a r h => this _ s a r h

theorem Tall.many1 {f : α → Nat} {g : List α → Nat} (hn : g [] = 0) (hg : ∀ a as, g (a :: as) = max (f a) (g as)) {c : Nat} {p : PD α}
    (hp : Tall f c p) : Tall g c (PD.many1 p) := by
  intro s x r h
  simp only [PD.many1, PD.map, PD.pair, P.map, P.pair] at h
  simp only [PD.many1, PD.map, PD.pair, PD.after]
  cases h1 : p.run s with
  | none => simp [h1] at h
  | some y =>
    obtain ⟨a, r1⟩ := y
    cases h2 : (PD.many0 p).run r1 with
    | none => simp [h1, h2] at h
    | some z =>
      obtain ⟨as, r2⟩ := z
      simp only [h1, h2, Option.some.injEq, Prod.mk.injEq] at h
      have e1 := hp s a r1 h1
      have e2 := hp.many0 hn hg r1 as r2 h2
      rw [← h.1, hg]
      simp only
      omega

theorem Tall.separatedList1 {f : α → Nat} {g : List α → Nat} (hn : g [] = 0) (hg : ∀ a as, g (a :: as) = max (f a) (g as)) {c : Nat} {p : PD α}
    {sep : PD β} (hp : Tall f c p) : Tall g c (PD.separatedList1 sep p) := by
  have key : ∀ fuel s a r, P.sepLoop sep.run p.run fuel s = some (a, r) → g a ≤ 4 * PD.sepDepth sep p fuel s + c := by
    intro fuel
    induction fuel with
    | zero => intro s a r h; simp [P.sepLoop] at h
    | succ fuel ih =>
      intro s a r h
      simp only [P.sepLoop] at h
      simp only [PD.sepDepth, PD.after]
      split at h
      · simp only [Option.some.injEq, Prod.mk.injEq] at h
        rw [← h.1, hn]
        omega
      · next b r1 h1 =>
        split at h
        · simp at h
        · next hne =>
          split at h
          · simp only [Option.some.injEq, Prod.mk.injEq] at h
            rw [← h.1, hn]
            omega
          · next x r2 h2 =>
            split at h
            · simp at h
            · next as r3 h3 =>
              simp only [Option.some.injEq, Prod.mk.injEq] at h
              have e1 := hp r1 x r2 h2
              have e2 := ih r2 as r3 h3
              rw [← h.1, hg]
              simp only [h1, hne, if_false, Bool.false_eq_true, h2]
              omega
  intro s x r h
  simp only [PD.separatedList1, P.separatedList1] at h
  simp only [PD.separatedList1, PD.after]
  split at h
  · simp at h
  · next a r1 h1 =>
    split at h
    · simp at h
    · next as r2 h2 =>
      simp only [Option.some.injEq, Prod.mk.injEq] at h
      have e1 := hp s a r1 h1
      have e2 := key _ r1 as r2 h2
      rw [← h.1, hg]
      simp only [h1]
      omega

theorem RegexD.tall (cl : Str → Nat) (k : Nat) : Tall RegexTree.calls 1 (RegexD.expression cl k) := by
  induction k with
  | zero => intro s a r h; simp [RegexD.expression] at h
  | succ k ih =>
    have hitem : Tall RegexTree.calls 3 (PD.alt (RegexD.parExpr (RegexD.expression cl k)) (PD.leaf (combinatedChar cl))) := by
      intro s t r h
      simp only [PD.alt, P.alt, PD.leaf] at h
      simp only [PD.alt]
      cases h1 : (RegexD.parExpr (RegexD.expression cl k)).run s with
      | some x =>
        simp only [h1, Option.some.injEq] at h
        subst h
        simp only [RegexD.parExpr, PD.delimited, PD.preceded, PD.terminated, PD.map, PD.pair, PD.leaf, P.map, P.pair] at h1
        simp only [RegexD.parExpr, PD.delimited, PD.preceded, PD.terminated, PD.map, PD.pair, PD.leaf, PD.after]
        cases h2 : P.oneOf ['('] s with
        | none => simp [h2] at h1
        | some y =>
          cases h3 : (RegexD.expression cl k).run y.2 with
          | none => simp [h2, h3] at h1
          | some z =>
            cases h4 : P.oneOf [')'] z.2 with
            | none => simp [h2, h3, h4] at h1
            | some w =>
              cases h5 : P.opt (P.oneOf ['+', '*']) w.2 with
              | none => simp [h2, h3, h4, h5] at h1
              | some v =>
                simp only [h2, h3, h4, h5, Option.some.injEq, Prod.mk.injEq] at h1
                have e1 := ih _ _ _ h3
                have e2 := calls_kleene z.1 v.1
                rw [← h1.1]
                simp only
                omega
      | none =>
        simp only [h1] at h
        unfold combinatedChar P.map P.pair at h
        cases h2 : regexChar cl s with
        | none => simp [h2] at h
        | some y =>
          cases h3 : P.opt (P.oneOf ['+', '*']) y.2 with
          | none => simp [h2, h3] at h
          | some z =>
            simp only [h2, h3, Option.some.injEq, Prod.mk.injEq] at h
            have e2 := calls_kleene (.chr y.1) z.1
            simp only [RegexTree.calls] at e2
            rw [← h.1]
            omega
    have hseq : Tall RegexTree.calls 4 (RegexD.sequence cl (RegexD.expression cl k)) := by
      intro s t r h
      simp only [RegexD.sequence, PD.map] at h ⊢
      obtain ⟨ts, h1, rfl⟩ := P.map_some.1 h
      have e1 := hitem.many1 (g := RegexTree.callsMax) (by simp [RegexTree.callsMax]) (fun a as => by simp [RegexTree.callsMax]) _ _ _ h1
      have e2 := calls_wrap (f := .seq) (fun ts => by simp [RegexTree.calls]) ts
      omega
    intro s t r h
    simp only [RegexD.expression] at h ⊢
    simp only [RegexD.alternation, PD.map] at h ⊢
    obtain ⟨ts, h1, rfl⟩ := P.map_some.1 h
    have e1 := hseq.separatedList1 (g := RegexTree.callsMax) (by simp [RegexTree.callsMax]) (fun a as => by simp [RegexTree.callsMax]) _ _ _ h1
    have e2 := calls_wrap (f := .alt) (fun ts => by simp [RegexTree.calls]) ts
    omega

/-! ## Deep texts -/

theorem RegexD.depth_open (cl : Str → Nat) (k : Nat) (s : Str) :
    (RegexD.expression cl k).depth s + 1 ≤ (RegexD.expression cl (k + 1)).depth ('(' :: s) := by
  have : P.oneOf ['('] ('(' :: s) = some ('(', s) := by simp [P.oneOf]
  have h1 : (RegexD.expression cl k).depth s ≤ (RegexD.parExpr (RegexD.expression cl k)).depth ('(' :: s) := by
    simp only [RegexD.parExpr, PD.map, PD.pair, PD.delimited, PD.preceded, PD.terminated, PD.leaf, this, PD.after]
    omega
  have h2 : (RegexD.parExpr (RegexD.expression cl k)).depth ('(' :: s) ≤ (RegexD.sequence cl (RegexD.expression cl k)).depth ('(' :: s) := by
    simp only [RegexD.sequence, PD.map, PD.many1, PD.pair, PD.alt]
    omega
  have h3 : (RegexD.sequence cl (RegexD.expression cl k)).depth ('(' :: s) ≤ (RegexD.alternation cl (RegexD.expression cl k)).depth ('(' :: s) := by
    simp only [RegexD.alternation, PD.map, PD.separatedList1]
    omega
  rw [RegexD.expression]
  simp only
  omega

namespace RegexTree

private theorem calls_le_max {ts : List RegexTree} {t : RegexTree} (h : t ∈ ts) : t.calls ≤ callsMax ts := by
  induction ts with
  | nil => cases h
  | cons a ts ih =>
    rw [callsMax]
    rcases List.mem_cons.1 h with rfl | h
    · omega
    · have := ih h; omega

private theorem max_some {ts : List RegexTree} (h : ts ≠ []) : ∃ t ∈ ts, callsMax ts = t.calls := by
  induction ts with
  | nil => exact absurd rfl h
  | cons a ts ih =>
    rw [callsMax]
    by_cases e : ts = []
    · exact ⟨a, by simp, by subst e; simp [callsMax]⟩
    · obtain ⟨t, ht, h1⟩ := ih e
      by_cases hc : a.calls ≤ callsMax ts
      · exact ⟨t, by simp [ht], by omega⟩
      · exact ⟨a, by simp, by omega⟩

theorem calls_part {a b : RegexTree} (h : PartOf b a) : b.calls + 1 ≤ a.calls := by
  cases h with
  | seq h => rw [calls]; have := calls_le_max h; omega
  | alt h => rw [calls]; have := calls_le_max h; omega
  | rep => rw [calls]

theorem calls_step (a : RegexTree) : a.calls = 1 ∨ ∃ b, PartOf b a ∧ a.calls = b.calls + 1 := by
  cases a with
  | seq ts =>
    by_cases e : ts = []
    · subst e; left; simp [calls, callsMax]
    · obtain ⟨t, ht, h1⟩ := max_some e
      exact .inr ⟨t, .seq ht, by rw [calls, h1]⟩
  | alt ts =>
    by_cases e : ts = []
    · subst e; left; simp [calls, callsMax]
    · obtain ⟨t, ht, h1⟩ := max_some e
      exact .inr ⟨t, .alt ht, by rw [calls, h1]⟩
  | rep t => exact .inr ⟨t, .rep, by rw [calls]⟩
  | chr c => left; rw [calls]

end RegexTree
end Dandy
