import Mathlib.Tactic.Ring
import Verif.Proofs.ParseCost
import Verif.Proofs.RegexSize
import Verif.Spec.ParseCost
/-! # The work done by the parser of regular expressions, with the copies made for `+`: lemmas -/

namespace Dandy
open P

namespace PC
variable {α β γ : Type}

/-- What is left is the end of the text. -/
def Suffixes (p : P α) : Prop := ∀ s a r, p s = some (a, r) → r <:+ s

/-- Both parsers do the same on the texts of `S`, the first one with at most `1 + M` times as many steps. -/
structure Scaled (S : Str → Prop) (M : Nat) (p q : PC α) : Prop where
  run : ∀ s, S s → p.run s = q.run s
  cost : ∀ s, S s → p.cost s ≤ (1 + M) * q.cost s

variable {S : Str → Prop} {M : Nat}

theorem after_scaled {x : Option (α × Str)} {f g : α → Str → Nat} (h : ∀ a r, x = some (a, r) → f a r ≤ (1 + M) * g a r) :
    after x f ≤ (1 + M) * after x g := by
  cases x with
  | none => exact Nat.zero_le _
  | some y => exact h y.1 y.2 rfl

theorem one_scaled : 1 ≤ (1 + M) * 1 := by omega

theorem Scaled.refl (p : PC α) : Scaled S M p p := ⟨fun _ _ => rfl, fun _ _ => Nat.le_mul_of_pos_left _ (by omega)⟩

theorem Scaled.map {p q : PC α} (h : Scaled S M p q) (f : α → β) : Scaled S M (PC.map f p) (PC.map f q) where
  run s hs := by change P.map f p.run s = P.map f q.run s; unfold P.map; rw [h.run s hs]
  cost s hs := by
    have := h.cost s hs
    change 1 + p.cost s ≤ (1 + M) * (1 + q.cost s)
    rw [Nat.mul_add]; omega

theorem Scaled.pair_rest {S' : Str → Prop} {p q : PC α} {p' q' : PC β} (h : Scaled S M p q) (hq : ∀ s a r, S s → q.run s = some (a, r) → S' r)
    (h' : Scaled S' M p' q') : Scaled S M (PC.pair p p') (PC.pair q q') where
  run s hs := by
    change P.pair p.run p'.run s = P.pair q.run q'.run s
    unfold P.pair
    rw [h.run s hs]
    cases hx : q.run s with
    | none => rfl
    | some x =>
      obtain ⟨a, r⟩ := x
      simp only [h'.run r (hq s a r hs hx)]
  cost s hs := by
    have h1 := h.cost s hs
    change 1 + p.cost s + after (p.run s) (fun _ r => p'.cost r) ≤ (1 + M) * (1 + q.cost s + after (q.run s) (fun _ r => q'.cost r))
    rw [h.run s hs, Nat.mul_add, Nat.mul_add]
    have h2 : after (q.run s) (fun _ r => p'.cost r) ≤ (1 + M) * after (q.run s) (fun _ r => q'.cost r) :=
      after_scaled (fun a r hx => h'.cost r (hq s a r hs hx))
    omega

theorem Scaled.pair (hS : ∀ s r, S s → r <:+ s → S r) {p q : PC α} {p' q' : PC β} (h : Scaled S M p q) (hq : Suffixes q.run) (h' : Scaled S M p' q') :
    Scaled S M (PC.pair p p') (PC.pair q q') :=
  h.pair_rest (fun s a r hs hx => hS s r hs (hq s a r hx)) h'

theorem Scaled.alt {p q p' q' : PC α} (h : Scaled S M p q) (h' : Scaled S M p' q') : Scaled S M (PC.alt p p') (PC.alt q q') where
  run s hs := by
    change P.alt p.run p'.run s = P.alt q.run q'.run s
    unfold P.alt
    rw [h.run s hs, h'.run s hs]
  cost s hs := by
    have h1 := h.cost s hs
    have h2 := h'.cost s hs
    change 1 + p.cost s + (if (p.run s).isNone then p'.cost s else 0) ≤ (1 + M) * (1 + q.cost s + if (q.run s).isNone then q'.cost s else 0)
    rw [h.run s hs, Nat.mul_add, Nat.mul_add]
    split <;> omega

theorem Scaled.many0Cost (hS : ∀ s r, S s → r <:+ s → S r) {p q : PC α} (h : Scaled S M p q) (hq : Suffixes q.run) :
    ∀ (fuel : Nat) (s : Str), S s → many0Loop p.run fuel s = many0Loop q.run fuel s ∧ many0Cost p fuel s ≤ (1 + M) * many0Cost q fuel s
  | 0, s, _ => ⟨rfl, Nat.zero_le _⟩
  | fuel + 1, s, hs => by
    rw [many0Loop, many0Loop, PC.many0Cost, PC.many0Cost, h.run s hs]
    have h1 := h.cost s hs
    cases hx : q.run s with
    | none => exact ⟨rfl, by rw [after_none, after_none, Nat.mul_add, Nat.mul_add]; omega⟩
    | some x =>
      obtain ⟨a, r⟩ := x
      have h2 := Scaled.many0Cost hS h hq fuel r (hS s r hs (hq s a r hx))
      refine ⟨by simp only [h2.1], ?_⟩
      rw [after_some, after_some, Nat.mul_add, Nat.mul_add]
      split <;> omega

theorem Scaled.many1 (hS : ∀ s r, S s → r <:+ s → S r) {p q : PC α} (h : Scaled S M p q) (hq : Suffixes q.run) :
    Scaled S M (PC.many1 p) (PC.many1 q) := by
  have h0 : Scaled S M (PC.many0 p) (PC.many0 q) := ⟨fun s hs => (h.many0Cost hS hq (s.length + 1) s hs).1, fun s hs => by
    have := (h.many0Cost hS hq (s.length + 1) s hs).2
    change 1 + PC.many0Cost p _ s ≤ (1 + M) * (1 + PC.many0Cost q _ s)
    rw [Nat.mul_add]; omega⟩
  exact (h.pair hS hq h0).map _

theorem Scaled.sepCost (hS : ∀ s r, S s → r <:+ s → S r) {sep : PC β} {p q : PC α} (hsep : Suffixes sep.run) (h : Scaled S M p q) (hq : Suffixes q.run) :
    ∀ (fuel : Nat) (s : Str), S s → sepLoop sep.run p.run fuel s = sepLoop sep.run q.run fuel s ∧ sepCost sep p fuel s ≤ (1 + M) * sepCost sep q fuel s
  | 0, s, _ => ⟨rfl, Nat.zero_le _⟩
  | fuel + 1, s, hs => by
    rw [sepLoop, sepLoop, PC.sepCost, PC.sepCost]
    have h0 : sep.cost s ≤ (1 + M) * sep.cost s := Nat.le_mul_of_pos_left _ (by omega)
    cases hy : sep.run s with
    | none => exact ⟨rfl, by rw [after_none, after_none, Nat.mul_add, Nat.mul_add]; omega⟩
    | some y =>
      obtain ⟨b, m⟩ := y
      have hm := hS s m hs (hsep s b m hy)
      have h1 := h.cost m hm
      simp only [after_some, h.run m hm]
      cases hx : q.run m with
      | none =>
        refine ⟨rfl, ?_⟩
        rw [Nat.mul_add, Nat.mul_add]
        simp only [after_none, Nat.add_zero]
        split <;> omega
      | some x =>
        obtain ⟨a, r⟩ := x
        have h2 := Scaled.sepCost hS hsep h hq fuel r (hS m r hm (hq m a r hx))
        refine ⟨by simp only [h2.1], ?_⟩
        rw [Nat.mul_add, Nat.mul_add]
        simp only [after_some]
        split
        · omega
        · rw [Nat.mul_add]; omega

theorem Scaled.separatedList1 (hS : ∀ s r, S s → r <:+ s → S r) {sep : PC β} {p q : PC α} (hsep : Suffixes sep.run) (h : Scaled S M p q)
    (hq : Suffixes q.run) : Scaled S M (PC.separatedList1 sep p) (PC.separatedList1 sep q) where
  run s hs := by
    change P.separatedList1 sep.run p.run s = P.separatedList1 sep.run q.run s
    unfold P.separatedList1
    rw [h.run s hs]
    cases hx : q.run s with
    | none => rfl
    | some x =>
      obtain ⟨a, r⟩ := x
      simp only [(h.sepCost hS hsep hq (r.length + 1) r (hS s r hs (hq s a r hx))).1]
  cost s hs := by
    have h1 := h.cost s hs
    change 1 + p.cost s + after (p.run s) (fun _ r => PC.sepCost sep p (r.length + 1) r) ≤
      (1 + M) * (1 + q.cost s + after (q.run s) (fun _ r => PC.sepCost sep q (r.length + 1) r))
    rw [h.run s hs, Nat.mul_add, Nat.mul_add]
    have h2 : after (q.run s) (fun _ r => PC.sepCost sep p (r.length + 1) r) ≤ (1 + M) * after (q.run s) (fun _ r => PC.sepCost sep q (r.length + 1) r) :=
      after_scaled (fun a r hx => (h.sepCost hS hsep hq (r.length + 1) r (hS s r hs (hq s a r hx))).2)
    omega

end PC

namespace RegexC
open PC (after after_none after_some Scaled Suffixes)
variable {cl : Str → Nat}

/-! ## Sizes of what is parsed -/

theorem groupPlus_cons (c : Char) (u : Str) : groupPlus u ≤ groupPlus (c :: u) := by
  rw [groupPlus.eq_def (c :: u)]
  split
  · rename_i h; cases h
  · rename_i r h; cases h
    rw [groupPlus.eq_def ('+' :: r)]
    split
    · rename_i h; cases h
    · rename_i h; cases h
    · rename_i h; cases h; omega
  · rename_i h; cases h; exact Nat.le_refl _

theorem groupPlus_append (u v : Str) : groupPlus u + groupPlus v ≤ groupPlus (u ++ v) := by
  induction u using groupPlus.induct with
  | case1 => simp [groupPlus]
  | case2 r ih => simp only [List.cons_append, groupPlus]; omega
  | case3 c r hn ih =>
    have : groupPlus (c :: r) = groupPlus r := by
      rw [groupPlus.eq_def (c :: r)]
      split
      · rename_i h; cases h
      · rename_i r' h; cases h; exact absurd rfl (hn _ rfl)
      · rename_i h; cases h; rfl
    rw [this]
    have := groupPlus_cons c (r ++ v)
    rw [List.cons_append]
    omega

theorem groupPlus_suffix {u v : Str} (h : u <:+ v) : groupPlus u ≤ groupPlus v := by
  obtain ⟨w, rfl⟩ := h
  have := groupPlus_append w u
  omega

/-- `n` nodes for `k` items are few enough for the text `u`. -/
def FewN (u : Str) (n k : Nat) : Prop := ∃ x, n ≤ x * 2 ^ groupPlus u ∧ x + 2 * k ≤ 3 * u.length

theorem FewN.mono {u v : Str} {n m k j : Nat} (h : FewN u n k) (d : Nat) (hm : m ≤ n + d) (hc : groupPlus u ≤ groupPlus v)
    (hl : d + 3 * u.length + 2 * j ≤ 3 * v.length + 2 * k) : FewN v m j := by
  obtain ⟨x, h1, h2⟩ := h
  refine ⟨x + d, ?_, by omega⟩
  have h3 : (2 : Nat) ^ groupPlus u ≤ 2 ^ groupPlus v := Nat.pow_le_pow_right (by omega) hc
  have h4 : x * 2 ^ groupPlus u ≤ x * 2 ^ groupPlus v := Nat.mul_le_mul_left _ h3
  have h5 : d * 1 ≤ d * 2 ^ groupPlus v := Nat.mul_le_mul_left _ (Nat.pow_pos (by omega))
  rw [Nat.add_mul]; omega

theorem FewN.append {u v : Str} {n m k j : Nat} (h : FewN u n k) (h' : FewN v m j) : FewN (u ++ v) (n + m) (k + j) := by
  obtain ⟨x, h1, h2⟩ := h
  obtain ⟨y, h3, h4⟩ := h'
  have := groupPlus_append u v
  refine ⟨x + y, ?_, by rw [List.length_append]; omega⟩
  rw [Nat.add_mul]
  refine Nat.add_le_add (h1.trans (Nat.mul_le_mul_left _ ?_)) (h3.trans (Nat.mul_le_mul_left _ ?_)) <;>
    exact Nat.pow_le_pow_right (by omega) (by omega)

/-- What is parsed has few nodes for what was read. -/
def SmallN (p : P RegexTree) : Prop := ∀ s t r, p s = some (t, r) → ∃ u, s = u ++ r ∧ FewN u t.nodes 1

theorem few_of_ne {u : Str} {n : Nat} (h : n + 2 ≤ 3 * u.length) : FewN u n 1 := by
  refine ⟨n, ?_, by omega⟩
  exact Nat.le_mul_of_pos_right _ (Nat.pow_pos (by omega))

open RegexParser in
theorem itemP_smallN (h : Segmentation cl) {e : P RegexTree} (he : SmallN e) : SmallN (itemP cl e) := by
  intro s t r hs
  rw [itemP_eq] at hs
  obtain ⟨⟨t', o⟩, h1, rfl⟩ := map_some.1 hs
  obtain ⟨m, h2, h3⟩ := pair_some.1 h1
  have ha : ∃ u, s = u ++ m ∧ ((t'.nodes = 1 ∧ u ≠ []) ∨ ∃ w, u = '(' :: (w ++ [')']) ∧ FewN w t'.nodes 1) := by
    rcases alt_some.1 h2 with h4 | ⟨_, h4⟩
    · obtain ⟨a, c, m1, m2, h5, h6, h7⟩ := delimited_some.1 h4
      obtain ⟨h8, rfl⟩ := oneOf_some.1 h5
      obtain ⟨h9, rfl⟩ := oneOf_some.1 h7
      rw [List.mem_singleton] at h8 h9
      subst h8 h9
      obtain ⟨u, rfl, hu⟩ := he _ _ _ h6
      exact ⟨'(' :: (u ++ [')']), by simp, Or.inr ⟨u, rfl, hu⟩⟩
    · obtain ⟨c, h5, rfl⟩ := map_some.1 h4
      obtain ⟨u, h6, h7⟩ := regexChar_prefix h h5
      exact ⟨u, h6, Or.inl ⟨by rw [RegexTree.nodes], h7⟩⟩
  obtain ⟨u, rfl, hu⟩ := ha
  rcases opt_some.1 h3 with ⟨c, h4, h5⟩ | ⟨h4, rfl, _⟩
  · simp only at h4
    subst h4
    obtain ⟨h6, rfl⟩ := oneOf_some.1 h5
    simp only [List.mem_cons, List.not_mem_nil, or_false] at h6
    refine ⟨u ++ [c], by simp, ?_⟩
    rcases h6 with rfl | rfl
    · have : applyKleene (t', some '+') = .seq [t', .rep t'] := rfl
      rw [this]
      simp only [RegexTree.nodes, RegexTree.nodesList]
      rcases hu with ⟨h7, h8⟩ | ⟨w, rfl, x, h7, h8⟩
      · rw [h7]
        have := List.length_pos_iff.2 h8
        exact few_of_ne (by rw [List.length_append]; simp only [List.length_cons, List.length_nil]; omega)
      · refine ⟨x + 2, ?_, by simp; omega⟩
        have e : groupPlus w + 1 ≤ groupPlus ('(' :: (w ++ [')']) ++ ['+']) := by
          have e1 : '(' :: (w ++ [')']) ++ ['+'] = '(' :: (w ++ [')', '+']) := by simp
          rw [e1]
          have e2 := groupPlus_cons '(' (w ++ [')', '+'])
          have e3 := groupPlus_append w [')', '+']
          have e4 : groupPlus [')', '+'] = 1 := rfl
          omega
        have h9 : (x + 2) * 2 ^ (groupPlus w + 1) ≤ (x + 2) * 2 ^ groupPlus ('(' :: (w ++ [')']) ++ ['+']) :=
          Nat.mul_le_mul_left _ (Nat.pow_le_pow_right (by omega) e)
        have h10 := Nat.pow_pos (n := groupPlus w) (show 0 < 2 by omega)
        have h11 : (x + 2) * 2 ^ (groupPlus w + 1) = 2 * (x * 2 ^ groupPlus w) + 4 * 2 ^ groupPlus w := by rw [Nat.pow_succ]; ring
        omega
    · have : applyKleene (t', some '*') = .rep t' := rfl
      rw [this, RegexTree.nodes]
      rcases hu with ⟨h7, h8⟩ | ⟨w, rfl, hw⟩
      · rw [h7]
        have := List.length_pos_iff.2 h8
        exact few_of_ne (by rw [List.length_append]; simp only [List.length_cons, List.length_nil]; omega)
      · refine hw.mono 1 (by omega) ?_ (by simp; omega)
        have e2 := groupPlus_cons '(' (w ++ [')'] ++ ['*'])
        have e3 := groupPlus_append w ([')'] ++ ['*'])
        rw [List.append_assoc] at e2
        rw [List.cons_append, List.append_assoc]
        omega
  · simp only at h4
    subst h4
    refine ⟨u, rfl, ?_⟩
    have : applyKleene (t', none) = t' := rfl
    rw [this]
    rcases hu with ⟨h7, h8⟩ | ⟨w, rfl, hw⟩
    · rw [h7]
      have := List.length_pos_iff.2 h8
      exact few_of_ne (by omega)
    · refine hw.mono 0 (by omega) ?_ (by simp; omega)
      have e2 := groupPlus_cons '(' (w ++ [')'])
      have e3 := groupPlus_append w [')']
      omega

theorem chain_smallN {p : P RegexTree} (hp : SmallN p) {s r : Str} {ts : List RegexTree} (hc : Chain p s ts r) :
    ∃ u, s = u ++ r ∧ FewN u (RegexTree.nodesList ts) ts.length := by
  induction hc with
  | nil => exact ⟨[], rfl, 0, by rw [RegexTree.nodesList]; omega, by simp⟩
  | cons h1 _ ih =>
    obtain ⟨u, rfl, hu⟩ := hp _ _ _ h1
    obtain ⟨v, rfl, hv⟩ := ih
    refine ⟨u ++ v, by simp, ?_⟩
    rw [RegexTree.nodesList, List.length_cons, Nat.add_comm _ 1]
    exact hu.append hv

theorem nodesList_single (t : RegexTree) : RegexTree.nodesList [t] = t.nodes := by
  rw [RegexTree.nodesList, RegexTree.nodesList]; omega

open RegexParser in
theorem sequence_smallN (h : Segmentation cl) {e : P RegexTree} (hce : Consumes e) (he : SmallN e) : SmallN (RegexParser.sequence cl e) := by
  intro s t r hs
  obtain ⟨ts, h1, rfl⟩ := map_some.1 hs
  obtain ⟨hne, hc, _⟩ := (many1_iff (itemP_consumes h hce)).1 h1
  obtain ⟨u, h2, h3⟩ := chain_smallN (itemP_smallN h he) hc
  refine ⟨u, h2, ?_⟩
  match ts, hne with
  | [t], _ => rw [nodesList_single] at h3; exact h3
  | t :: t' :: ts, _ =>
    have : wrapMultiple .seq (t :: t' :: ts) = .seq (t :: t' :: ts) := by unfold wrapMultiple; simp
    rw [this, RegexTree.nodes]
    exact h3.mono 1 (by omega) (by omega) (by simp only [List.length_cons]; omega)

open RegexParser in
theorem expression_smallN (h : Segmentation cl) : ∀ d, SmallN (RegexParser.expression cl d)
  | 0 => fun _ _ _ hs => by cases hs
  | d + 1 => by
    intro s t r hs
    obtain ⟨ts, h1, rfl⟩ := map_some.1 hs
    have hce := expression_consumes h d
    have hq := sequence_smallN h hce (expression_smallN h d)
    obtain ⟨a, as, m, rfl, h2, h3, _⟩ := (separatedList1_iff (oneOf_consumes _) (sequence_consumes h hce).shrinks).1 h1
    obtain ⟨u, rfl, hu⟩ := hq _ _ _ h2
    have hp : SmallN (preceded (oneOf ['|']) (RegexParser.sequence cl (RegexParser.expression cl d))) := by
      intro s t r h4
      obtain ⟨b, m1, h5, h6⟩ := preceded_some.1 h4
      obtain ⟨h7, rfl⟩ := oneOf_some.1 h5
      obtain ⟨v, rfl, hv⟩ := hq _ _ _ h6
      exact ⟨b :: v, rfl, hv.mono 0 (by omega) (groupPlus_cons b v) (by simp)⟩
    cases as with
    | nil =>
      cases h3
      exact ⟨u, rfl, hu⟩
    | cons a' as =>
      obtain ⟨v, rfl, hv⟩ := chain_smallN hp h3
      refine ⟨u ++ v, by simp, ?_⟩
      have : wrapMultiple .alt (a :: a' :: as) = .alt (a :: a' :: as) := by unfold wrapMultiple; simp
      rw [this, RegexTree.nodes, RegexTree.nodesList]
      exact (hu.append hv).mono 1 (by omega) (by omega) (by simp only [List.length_cons]; omega)

/-! ## Copies and steps -/

theorem oneOf_suffixes (cs : List Char) : Suffixes (P.oneOf cs) := by
  intro s a r h
  obtain ⟨_, rfl⟩ := oneOf_some.1 h
  exact ⟨[a], rfl⟩

theorem SmallN.suffixes {p : P RegexTree} (h : SmallN p) : Suffixes p := by
  intro s a r hs
  obtain ⟨u, rfl, _⟩ := h s a r hs
  exact ⟨u, rfl⟩

theorem kleene_scaled {S : Str → Prop} {M : Nat} {copy : RegexTree → Nat} {p q : PC (RegexTree × Option Char)} (h : Scaled S M p q)
    (hM : ∀ s t r, S s → q.run s = some ((t, some '+'), r) → copy t ≤ M) : Scaled S M (kleene copy p) (kleene free q) where
  run s hs := by change P.map _ p.run s = P.map _ q.run s; unfold P.map; rw [h.run s hs]
  cost s hs := by
    have h1 := h.cost s hs
    change 1 + p.cost s + after (p.run s) (fun a _ => if a.2 = some '+' then copy a.1 else 0) ≤
      (1 + M) * (1 + q.cost s + after (q.run s) (fun a _ => if a.2 = some '+' then free a.1 else 0))
    rw [after_free, h.run s hs, Nat.mul_add, Nat.mul_add]
    have h2 : after (q.run s) (fun a _ => if a.2 = some '+' then copy a.1 else 0) ≤ M := by
      cases hx : q.run s with
      | none => exact Nat.zero_le _
      | some x =>
        obtain ⟨⟨t, o⟩, r⟩ := x
        rw [after_some]
        dsimp only
        split
        · rename_i ho; subst ho; exact hM s t r hs hx
        · exact Nat.zero_le _
    omega

theorem expression_scaled (h : Segmentation cl) {S : Str → Prop} (hS : ∀ s r, S s → r <:+ s → S r) {M : Nat} {copy : RegexTree → Nat}
    (hch : ∀ c, copy (.chr c) ≤ M)
    (hM : ∀ d s t r, S ('(' :: s) → RegexParser.expression cl d s = some (t, ')' :: '+' :: r) → copy t ≤ M) :
    ∀ d, Scaled S M (expression copy cl d) (expression free cl d)
  | 0 => .refl _
  | d + 1 => by
    have ih := expression_scaled h hS hch hM d
    have hrun : (expression free cl d).run = RegexParser.expression cl d := expression_run free cl d
    have hsm := expression_smallN h d
    have hce : Consumes (RegexParser.expression cl d) := Dandy.expression_consumes h d
    have hsuf : Suffixes (expression free cl d).run := by rw [hrun]; exact hsm.suffixes
    have hpar : Scaled S M (PC.delimited (PC.oneOf ['(']) (expression copy cl d) (PC.oneOf [')']))
        (PC.delimited (PC.oneOf ['(']) (expression free cl d) (PC.oneOf [')'])) :=
      (Scaled.pair hS (.refl _) (oneOf_suffixes _) ((Scaled.pair hS ih hsuf (.refl _)).map _)).map _
    have hpsuf : Suffixes (PC.delimited (PC.oneOf ['(']) (expression free cl d) (PC.oneOf [')'])).run := by
      intro s t r hs
      obtain ⟨a, c, m1, m2, h5, h6, h7⟩ := delimited_some.1 (show P.delimited (P.oneOf ['(']) (expression free cl d).run (P.oneOf [')']) s = some (t, r) from hs)
      exact (oneOf_suffixes _ _ _ _ h7).trans ((hsuf _ _ _ h6).trans (oneOf_suffixes _ _ _ _ h5))
    have h1 : Scaled S M (parExpr copy (expression copy cl d)) (parExpr free (expression free cl d)) := by
      refine kleene_scaled (Scaled.pair hS hpar hpsuf (.refl _)) ?_
      intro s t r hs hq
      obtain ⟨m, h2, h3⟩ := pair_some.1 (show P.pair (PC.delimited (PC.oneOf ['(']) (expression free cl d) (PC.oneOf [')'])).run
        (P.opt (P.oneOf ['+', '*'])) s = some ((t, some '+'), r) from hq)
      obtain ⟨a, c, m1, m2, h5, h6, h7⟩ := delimited_some.1 (show P.delimited (P.oneOf ['(']) (expression free cl d).run (P.oneOf [')']) s = some (t, m) from h2)
      obtain ⟨h8, rfl⟩ := oneOf_some.1 h5
      obtain ⟨h9, rfl⟩ := oneOf_some.1 h7
      rw [List.mem_singleton] at h8 h9
      subst h8 h9
      rcases opt_some.1 h3 with ⟨c, h4, h5⟩ | ⟨h4, _⟩
      · cases h4
        obtain ⟨_, rfl⟩ := oneOf_some.1 h5
        rw [hrun] at h6
        exact hM d _ t r hs h6
      · cases h4
    have h2 : Scaled S M (combinatedChar copy cl) (combinatedChar free cl) := by
      refine kleene_scaled (.refl _) ?_
      intro s t r hs hq
      obtain ⟨m, h2, h3⟩ := pair_some.1 (show P.pair (P.map RegexTree.chr (regexChar cl).run)
        (P.opt (P.oneOf ['+', '*'])) s = some ((t, some '+'), r) from hq)
      obtain ⟨c, _, rfl⟩ := map_some.1 h2
      exact hch c
    have hitem : SmallN (item cl (expression free cl d)).run := by
      have : (item cl (expression free cl d)).run = itemP cl (RegexParser.expression cl d) := by rw [← hrun]; rfl
      rw [this]
      exact itemP_smallN h hsm
    have hseq : SmallN (sequence free cl (expression free cl d)).run := by
      have : (sequence free cl (expression free cl d)).run = RegexParser.sequence cl (RegexParser.expression cl d) := by rw [← hrun]; rfl
      rw [this]
      exact sequence_smallN h hce hsm
    have h3 : Scaled S M (sequence copy cl (expression copy cl d)) (sequence free cl (expression free cl d)) :=
      ((h1.alt h2).many1 hS hitem.suffixes).map _
    exact (h3.separatedList1 hS (oneOf_suffixes _) hseq.suffixes).map _

/-- The steps with copies, if every copied tree has at most `M` nodes. -/
theorem expression_le (h : Segmentation cl) (core : Str) {M : Nat} (hM1 : 1 ≤ M)
    (hM : ∀ t u v r, core = u ++ '(' :: (v ++ ')' :: '+' :: r) → FewN v t 1 → t ≤ M) (d : Nat) :
    (expression RegexTree.nodes cl d).cost core ≤ (1 + M) * (64 * core.length + 30) := by
  have h1 := (expression_scaled h (S := fun s => s <:+ core) (M := M) (copy := RegexTree.nodes) (fun s r hs hr => hr.trans hs)
    (fun c => by rw [RegexTree.nodes]; exact hM1) (by
      intro d s t r hs he
      obtain ⟨v, rfl, hv⟩ := expression_smallN h d _ _ _ he
      obtain ⟨u, rfl⟩ := hs
      exact hM _ u v r rfl hv) d).cost core List.suffix_rfl
  exact h1.trans (Nat.mul_le_mul_left _ ((expression_good h d).le core))

/-! ## Steps are at least as many as nodes -/

/-- What is parsed takes as many steps as it has nodes. -/
def Paid (p : PC RegexTree) : Prop := ∀ s t r, p.run s = some (t, r) → t.nodes ≤ p.cost s

theorem kleene_paid {p : PC (RegexTree × Option Char)} (h : ∀ s t o r, p.run s = some ((t, o), r) → t.nodes + 1 ≤ p.cost s) :
    Paid (kleene RegexTree.nodes p) := by
  intro s t r hs
  obtain ⟨⟨t', o⟩, h1, rfl⟩ := map_some.1 hs
  have h2 := h _ _ _ _ h1
  change _ ≤ 1 + p.cost s + after (p.run s) (fun a _ => if a.2 = some '+' then a.1.nodes else 0)
  rw [h1, after_some]
  dsimp only
  cases o with
  | none =>
    have : RegexParser.applyKleene (t', none) = t' := rfl
    rw [this]; omega
  | some c =>
    by_cases hc : c = '+'
    · subst hc
      have : RegexParser.applyKleene (t', some '+') = .seq [t', .rep t'] := rfl
      rw [this, if_pos rfl]
      simp only [RegexTree.nodes, RegexTree.nodesList]
      omega
    · have : RegexParser.applyKleene (t', some c) = .rep t' := by
        unfold RegexParser.applyKleene; simp [hc]
      rw [this, RegexTree.nodes]
      omega

theorem many0_paid {p : PC RegexTree} (hc : Consumes p.run) (h : Paid p) : ∀ (fuel : Nat) (s : Str), s.length < fuel → ∀ ts r,
    many0Loop p.run fuel s = some (ts, r) → RegexTree.nodesList ts ≤ PC.many0Cost p fuel s
  | 0, s, hs => by omega
  | fuel + 1, s, hs => by
    intro ts r h1
    rw [many0Loop] at h1
    rw [PC.many0Cost]
    cases h2 : p.run s with
    | none =>
      rw [h2] at h1
      cases h1
      rw [RegexTree.nodesList]
      exact Nat.zero_le _
    | some x =>
      obtain ⟨a, m⟩ := x
      have hlt := hc s a m h2
      have hne : ¬ (m.length == s.length) = true := by simp; omega
      simp only [h2, hne, if_false, Bool.false_eq_true] at h1
      cases h3 : many0Loop p.run fuel m with
      | none => rw [h3] at h1; cases h1
      | some y =>
        obtain ⟨as, r'⟩ := y
        rw [h3] at h1
        cases h1
        have h4 := many0_paid hc h fuel m (by omega) as r h3
        have h5 := h s a m h2
        simp only [after_some, hne, if_false, Bool.false_eq_true, RegexTree.nodesList]
        omega

theorem sep_paid {sep : PC Char} {p : PC RegexTree} (hsep : Consumes sep.run) (hc : Consumes p.run) (h : Paid p) : ∀ (fuel : Nat) (s : Str), s.length < fuel → ∀ ts r,
    sepLoop sep.run p.run fuel s = some (ts, r) → RegexTree.nodesList ts ≤ PC.sepCost sep p fuel s
  | 0, s, hs => by omega
  | fuel + 1, s, hs => by
    intro ts r h1
    rw [sepLoop] at h1
    rw [PC.sepCost]
    cases h2 : sep.run s with
    | none =>
      rw [h2] at h1
      cases h1
      rw [RegexTree.nodesList]
      exact Nat.zero_le _
    | some x =>
      obtain ⟨b, m⟩ := x
      have hlt := hsep s b m h2
      have hne : ¬ (m.length == s.length) = true := by simp; omega
      simp only [h2, hne, if_false, Bool.false_eq_true] at h1
      simp only [after_some, hne, if_false, Bool.false_eq_true]
      cases h3 : p.run m with
      | none =>
        rw [h3] at h1
        cases h1
        rw [RegexTree.nodesList]
        exact Nat.zero_le _
      | some z =>
        obtain ⟨a, m'⟩ := z
        have hlt' := hc m a m' h3
        simp only [h3] at h1
        cases h4 : sepLoop sep.run p.run fuel m' with
        | none => rw [h4] at h1; cases h1
        | some y =>
          obtain ⟨as, r'⟩ := y
          rw [h4] at h1
          cases h1
          have h5 := sep_paid hsep hc h fuel m' (by omega) as r h4
          have h6 := h m a m' h3
          simp only [after_some, RegexTree.nodesList]
          omega

theorem wrap_nodes (f : List RegexTree → RegexTree) (hf : ∀ ts, (f ts).nodes = 1 + RegexTree.nodesList ts) (t : RegexTree) (ts : List RegexTree) :
    (RegexParser.wrapMultiple f (t :: ts)).nodes ≤ 1 + RegexTree.nodesList (t :: ts) := by
  unfold RegexParser.wrapMultiple
  split
  · rw [hf]
  · simp only [List.headD_cons, RegexTree.nodesList]; omega

theorem expression_paid (h : Segmentation cl) : ∀ d, Paid (expression RegexTree.nodes cl d)
  | 0 => fun s t r hs => by cases hs
  | d + 1 => by
    have ih := expression_paid h d
    have hrun : (expression RegexTree.nodes cl d).run = RegexParser.expression cl d := expression_run _ cl d
    have hce : Consumes (expression RegexTree.nodes cl d).run := by rw [hrun]; exact Dandy.expression_consumes h d
    have hrun1 : (expression RegexTree.nodes cl (d + 1)) = alternation RegexTree.nodes cl (expression RegexTree.nodes cl d) := rfl
    rw [hrun1]
    generalize expression RegexTree.nodes cl d = e at ih hce
    have h1 : Paid (parExpr RegexTree.nodes e) := by
      refine kleene_paid ?_
      intro s t o r hs
      obtain ⟨m, h2, h3⟩ := pair_some.1 hs
      obtain ⟨a, c, m1, m2, h5, h6, h7⟩ := delimited_some.1 (show P.delimited (P.oneOf ['(']) e.run (P.oneOf [')']) s = some (t, m) from h2)
      have h8 := ih _ _ _ h6
      have h9 : (PC.pair (PC.delimited (PC.oneOf ['(']) e (PC.oneOf [')'])) (PC.opt (PC.oneOf ['+', '*']))).cost s =
        1 + (1 + (1 + 1 + after ((P.oneOf ['(']) s) (fun _ m => 1 + (1 + e.cost m + after (e.run m) (fun _ _ => 1))))) +
          after ((PC.delimited (PC.oneOf ['(']) e (PC.oneOf [')'])).run s) (fun _ _ => 2) := rfl
      rw [h9, h5, after_some]
      omega
    have h2 : Paid (combinatedChar RegexTree.nodes cl) := by
      refine kleene_paid ?_
      intro s t o r hs
      obtain ⟨m, h2, h3⟩ := pair_some.1 hs
      obtain ⟨c, _, rfl⟩ := map_some.1 (show P.map RegexTree.chr (regexChar cl).run s = some (t, m) from h2)
      rw [RegexTree.nodes]
      change 1 + 1 ≤ 1 + (1 + (regexChar cl).cost s) + _
      omega
    have h3 : Paid (PC.alt (parExpr RegexTree.nodes e) (combinatedChar RegexTree.nodes cl)) := by
      intro s t r hs
      have h0 : (PC.alt (parExpr RegexTree.nodes e) (combinatedChar RegexTree.nodes cl)).cost s = 1 + (parExpr RegexTree.nodes e).cost s +
        if ((parExpr RegexTree.nodes e).run s).isNone then (combinatedChar RegexTree.nodes cl).cost s else 0 := rfl
      rw [h0]
      rcases alt_some.1 hs with h4 | ⟨h4, h5⟩
      · have := h1 _ _ _ h4
        omega
      · have := h2 _ _ _ h5
        have h6 : (parExpr RegexTree.nodes e).run s = none := h4
        rw [h6]
        simp only [Option.isNone_none, if_true]
        omega
    have hci : Consumes (PC.alt (parExpr RegexTree.nodes e) (combinatedChar RegexTree.nodes cl)).run := Dandy.itemP_consumes h hce
    have h4 : Paid (sequence RegexTree.nodes cl e) := by
      intro s t r hs
      generalize hi : PC.alt (parExpr RegexTree.nodes e) (combinatedChar RegexTree.nodes cl) = i at h3 hci
      have hseq : sequence RegexTree.nodes cl e = PC.map (RegexParser.wrapMultiple .seq) (PC.many1 i) := by rw [← hi]; rfl
      rw [hseq] at hs ⊢
      obtain ⟨ts, h5, rfl⟩ := map_some.1 hs
      obtain ⟨⟨t, ts⟩, h6, rfl⟩ := map_some.1 h5
      obtain ⟨m, h7, h8⟩ := pair_some.1 h6
      have h9 := h3 _ _ _ h7
      have h10 := many0_paid hci h3 (m.length + 1) m (by omega) ts r h8
      have h11 := wrap_nodes .seq (fun ts => by rw [RegexTree.nodes]) t ts
      have h12 : (PC.map (RegexParser.wrapMultiple .seq) (PC.many1 i)).cost s = 1 + (1 + (1 + i.cost s + after (i.run s) (fun _ r =>
        1 + PC.many0Cost i (r.length + 1) r))) := rfl
      rw [h12, h7, after_some]
      rw [RegexTree.nodesList] at h11
      dsimp only at h7 h8 h9 h10 ⊢
      omega
    have hcs : Consumes (sequence RegexTree.nodes cl e).run := Dandy.sequence_consumes h hce
    intro s t r hs
    generalize hq : sequence RegexTree.nodes cl e = q at h4 hcs
    have halt : alternation RegexTree.nodes cl e = PC.map (RegexParser.wrapMultiple .alt) (PC.separatedList1 (PC.oneOf ['|']) q) := by rw [← hq]; rfl
    rw [halt] at hs ⊢
    obtain ⟨ts, h5, rfl⟩ := map_some.1 hs
    have h6 : (PC.map (RegexParser.wrapMultiple .alt) (PC.separatedList1 (PC.oneOf ['|']) q)).cost s = 1 + (1 + q.cost s + after (q.run s) (fun _ r =>
      PC.sepCost (PC.oneOf ['|']) q (r.length + 1) r)) := rfl
    rw [h6]
    have h7 : P.separatedList1 (P.oneOf ['|']) q.run s = some (ts, r) := h5
    unfold P.separatedList1 at h7
    cases h8 : q.run s with
    | none => rw [h8] at h7; cases h7
    | some x =>
      obtain ⟨t, m⟩ := x
      simp only [h8] at h7
      cases h9 : sepLoop (P.oneOf ['|']) q.run (m.length + 1) m with
      | none => rw [h9] at h7; cases h7
      | some y =>
        obtain ⟨as, r'⟩ := y
        rw [h9] at h7
        cases h7
        have h10 := h4 _ _ _ h8
        have h11 := sep_paid (sep := PC.oneOf ['|']) (oneOf_consumes _) hcs h4 (m.length + 1) m (by omega) as r h9
        have h12 := wrap_nodes .alt (fun ts => by rw [RegexTree.nodes]) t as
        rw [RegexTree.nodesList] at h12
        rw [after_some]
        omega

/-! ## The nesting -/

theorem kleene_same {S : Str → Prop} {M : Nat} {copy : RegexTree → Nat} {p q : PC (RegexTree × Option Char)} (h : Scaled S M p q) :
    Scaled S M (kleene copy p) (kleene copy q) where
  run s hs := by change P.map _ p.run s = P.map _ q.run s; unfold P.map; rw [h.run s hs]
  cost s hs := by
    have h1 := h.cost s hs
    change 1 + p.cost s + after (p.run s) (fun a _ => if a.2 = some '+' then copy a.1 else 0) ≤
      (1 + M) * (1 + q.cost s + after (q.run s) (fun a _ => if a.2 = some '+' then copy a.1 else 0))
    rw [h.run s hs, Nat.mul_add, Nat.mul_add]
    have h2 := Nat.le_mul_of_pos_left (after (q.run s) (fun a _ => if a.2 = some '+' then copy a.1 else 0)) (show 0 < 1 + M by omega)
    omega

/-- The bound on the nesting does not matter: it is never reached. -/
theorem expression_depth_le (h : Segmentation cl) (copy : RegexTree → Nat) : ∀ (n d d' : Nat), n < d → n < d' →
    Scaled (fun s => s.length ≤ n) 0 (expression copy cl d) (expression copy cl d')
  | n, d, d', hd, hd' => by
    obtain ⟨d, rfl⟩ : ∃ e, d = e + 1 := ⟨d - 1, by omega⟩
    obtain ⟨d', rfl⟩ : ∃ e, d' = e + 1 := ⟨d' - 1, by omega⟩
    have hS : ∀ s r : Str, s.length ≤ n → r <:+ s → r.length ≤ n := fun s r hs hr => Nat.le_trans hr.length_le hs
    have hrun : (expression copy cl d').run = RegexParser.expression cl d' := expression_run copy cl d'
    have hsm := expression_smallN h d'
    have hce : Consumes (RegexParser.expression cl d') := Dandy.expression_consumes h d'
    have hpar : Scaled (fun s => s.length ≤ n) 0 (PC.delimited (PC.oneOf ['(']) (expression copy cl d) (PC.oneOf [')']))
        (PC.delimited (PC.oneOf ['(']) (expression copy cl d') (PC.oneOf [')'])) := by
      match n, hd, hd' with
      | 0, _, _ =>
        refine (Scaled.pair_rest (S' := fun _ => False) (.refl _) ?_ ⟨fun _ h => h.elim, fun _ h => h.elim⟩).map _
        intro s a r hs hx
        have := oneOf_consumes _ _ _ _ (show P.oneOf ['('] s = some (a, r) from hx)
        omega
      | n + 1, hd, hd' =>
        have ih := expression_depth_le h copy n d d' (by omega) (by omega)
        refine (Scaled.pair_rest (S' := fun s => s.length ≤ n) (.refl _) ?_
          ((Scaled.pair_rest (S' := fun _ => True) ih (fun _ _ _ _ _ => trivial) (.refl _)).map _)).map _
        intro s a r hs hx
        have := oneOf_consumes _ _ _ _ (show P.oneOf ['('] s = some (a, r) from hx)
        omega
    have h1 : Scaled (fun s => s.length ≤ n) 0 (parExpr copy (expression copy cl d)) (parExpr copy (expression copy cl d')) :=
      kleene_same (Scaled.pair_rest (S' := fun _ => True) hpar (fun _ _ _ _ _ => trivial) (.refl _))
    have hitem : SmallN (PC.alt (parExpr copy (expression copy cl d')) (combinatedChar copy cl)).run := by
      have : (PC.alt (parExpr copy (expression copy cl d')) (combinatedChar copy cl)).run = itemP cl (RegexParser.expression cl d') := by rw [← hrun]; rfl
      rw [this]
      exact itemP_smallN h hsm
    have hseq : SmallN (sequence copy cl (expression copy cl d')).run := by
      have : (sequence copy cl (expression copy cl d')).run = RegexParser.sequence cl (RegexParser.expression cl d') := by rw [← hrun]; rfl
      rw [this]
      exact sequence_smallN h hce hsm
    have h3 : Scaled (fun s => s.length ≤ n) 0 (sequence copy cl (expression copy cl d)) (sequence copy cl (expression copy cl d')) :=
      ((h1.alt (.refl _)).many1 hS hitem.suffixes).map _
    exact (h3.separatedList1 hS (oneOf_suffixes _) hseq.suffixes).map _

theorem expression_depth_eq (h : Segmentation cl) (copy : RegexTree → Nat) (s : Str) (d d' : Nat) (hd : s.length < d) (hd' : s.length < d') :
    (expression copy cl d).cost s = (expression copy cl d').cost s := by
  have h1 := (expression_depth_le h copy s.length d d' hd hd').cost s (Nat.le_refl _)
  have h2 := (expression_depth_le h copy s.length d' d hd' hd).cost s (Nat.le_refl _)
  omega

end RegexC
end Dandy
