import Verif.Spec.RegexGrammar
import Verif.Model.RegexParser
import Verif.Proofs.Nom
import Verif.Proofs.Regex
/-! # Lemmas about the parser of regular expressions -/

namespace Dandy
open RegexParser P RegexTree

theorem reserved_iff (c : Char) : isReservedChar c = true ↔ IsReserved c := by
  unfold isReservedChar IsReserved reserved
  simp only [List.contains_iff_mem, List.mem_cons, List.not_mem_nil, or_false]
  tauto

theorem denoteSeq_single (t : RegexTree) : denoteSeq [t] = t.denote := by
  rw [denoteSeq, denoteSeq, mul_one]

theorem denoteAlt_single (t : RegexTree) : denoteAlt [t] = t.denote := by
  rw [denoteAlt, denoteAlt, add_zero]

theorem denote_wrap_seq {ts : List RegexTree} (h : ts ≠ []) : (wrapMultiple .seq ts).denote = denoteSeq ts := by
  match ts, h with
  | [t], _ => rw [denoteSeq_single]; rfl
  | t :: t' :: ts, _ =>
    have : wrapMultiple .seq (t :: t' :: ts) = .seq (t :: t' :: ts) := by unfold wrapMultiple; simp
    rw [this, denote]

theorem denote_wrap_alt {ts : List RegexTree} (h : ts ≠ []) : (wrapMultiple .alt ts).denote = denoteAlt ts := by
  match ts, h with
  | [t], _ => rw [denoteAlt_single]; rfl
  | t :: t' :: ts, _ =>
    have : wrapMultiple .alt (t :: t' :: ts) = .alt (t :: t' :: ts) := by unfold wrapMultiple; simp
    rw [this, denote]

variable {cl : Str → Nat}

theorem oneCluster_some {s r : Str} {c : RegexChar} :
    oneCluster cl s = some (c, r) ↔ s ≠ [] ∧ c = .grapheme (s.take (cl s)) ∧ r = s.drop (cl s) := by
  unfold oneCluster
  cases s with
  | nil => simp
  | cons a s => simp; tauto

theorem oneCluster_consumes (h : Segmentation cl) : Consumes (oneCluster cl) := by
  intro s c r hs
  obtain ⟨h1, _, rfl⟩ := oneCluster_some.1 hs
  have := h.pos s h1
  have := List.length_pos_iff.2 h1
  simp only [List.length_drop]; omega

theorem regexChar_consumes (h : Segmentation cl) : Consumes (regexChar cl) := by
  unfold regexChar
  refine alt_consumes (value_consumes (oneOf_consumes _)) (alt_consumes (value_consumes (oneOf_consumes _)) (alt_consumes ?_ ?_))
  · exact preceded_consumes (oneOf_consumes _) (oneCluster_consumes h).shrinks
  · exact verify_consumes (oneCluster_consumes h)

theorem head_take (h : Segmentation cl) (c : Char) (s : Str) (d : Char) : ((c :: s).take (cl (c :: s))).headD d = c := by
  have := h.pos (c :: s) (by simp)
  obtain ⟨k, hk⟩ : ∃ k, cl (c :: s) = k + 1 := ⟨cl (c :: s) - 1, by omega⟩
  rw [hk]; rfl

theorem graphemesList_single (t : RegexTree) : graphemesList [t] = t.graphemes := by
  rw [graphemesList, graphemesList, List.append_nil]

theorem graphemes_wrap_seq {ts : List RegexTree} (h : ts ≠ []) : (wrapMultiple .seq ts).graphemes = graphemesList ts := by
  unfold wrapMultiple
  split
  · rw [graphemes]
  · match ts, h with
    | [t], _ => rw [graphemesList_single]; rfl
    | _ :: _ :: _, _ => rename_i h2; simp at h2

theorem graphemes_wrap_alt {ts : List RegexTree} (h : ts ≠ []) : (wrapMultiple .alt ts).graphemes = graphemesList ts := by
  unfold wrapMultiple
  split
  · rw [graphemes]
  · match ts, h with
    | [t], _ => rw [graphemesList_single]; rfl
    | _ :: _ :: _, _ => rename_i h2; simp at h2

theorem regexChar_sound (h : Segmentation cl) {s r : Str} {c : RegexChar} (hs : regexChar cl s = some (c, r)) :
    AtomL cl s r (RegexTree.chr c).denote (RegexTree.chr c).graphemes := by
  unfold regexChar at hs
  rcases alt_some.1 hs with h1 | ⟨_, hs⟩
  · obtain ⟨a, h2, rfl⟩ := value_some.1 h1
    obtain ⟨h3, rfl⟩ := oneOf_some.1 h2
    rw [List.mem_singleton.1 h3, denote, graphemes]
    exact .empty
  rcases alt_some.1 hs with h1 | ⟨_, hs⟩
  · obtain ⟨a, h2, rfl⟩ := value_some.1 h1
    obtain ⟨h3, rfl⟩ := oneOf_some.1 h2
    rw [List.mem_singleton.1 h3, denote, graphemes]
    exact .epsilon
  rcases alt_some.1 hs with h1 | ⟨_, hs⟩
  · obtain ⟨a, m, h2, h3⟩ := preceded_some.1 h1
    obtain ⟨h4, rfl⟩ := oneOf_some.1 h2
    obtain ⟨h5, rfl, rfl⟩ := oneCluster_some.1 h3
    rw [List.mem_singleton.1 h4, denote, graphemes]
    exact .escaped h5
  · obtain ⟨h1, h2⟩ := verify_some.1 hs
    obtain ⟨h5, rfl, rfl⟩ := oneCluster_some.1 h1
    obtain ⟨a, s', rfl⟩ := List.exists_cons_of_ne_nil h5
    simp only [Bool.not_eq_true', head_take h] at h2
    rw [denote, graphemes]
    exact .plain (fun hr => by rw [(reserved_iff a).2 hr] at h2; cases h2)

/-- The parser of atoms without Kleene operator. -/
def atomP (cl : Str → Nat) (e : P RegexTree) : P RegexTree :=
  alt (delimited (oneOf ['(']) e (oneOf [')'])) (P.map RegexTree.chr (regexChar cl))

/-- The parser of items used by `sequence`. -/
def itemP (cl : Str → Nat) (e : P RegexTree) : P RegexTree := alt (parExpr e) (combinatedChar cl)

theorem opt_total {α : Type} (p : P α) (s : Str) : opt p s ≠ none := by
  unfold opt; cases p s <;> simp

theorem itemP_eq (e : P RegexTree) : itemP cl e = P.map applyKleene (P.pair (atomP cl e) (opt (oneOf ['+', '*']))) := by
  funext s
  unfold itemP atomP parExpr combinatedChar P.alt P.map P.pair
  cases h : delimited (oneOf ['(']) e (oneOf [')']) s with
  | none => simp only [h]
  | some x =>
    obtain ⟨t, r⟩ := x
    simp only [h]
    cases h2 : opt (oneOf ['+', '*']) r with
    | none => exact absurd h2 (opt_total _ _)
    | some y => rfl

theorem delimited_consumes {α β γ : Type} {p : P α} {q : P β} {t : P γ} (hp : Consumes p) (hq : Shrinks q) (ht : Shrinks t) :
    Consumes (delimited p q t) := by
  intro s b r h
  obtain ⟨a, c, m, n, h1, h2, h3⟩ := delimited_some.1 h
  have := hp _ _ _ h1
  have := hq _ _ _ h2
  have := ht _ _ _ h3
  omega

theorem itemP_consumes (h : Segmentation cl) {e : P RegexTree} (he : Consumes e) : Consumes (itemP cl e) := by
  unfold itemP parExpr combinatedChar
  refine alt_consumes (map_consumes (pair_consumes (delimited_consumes (oneOf_consumes _) he.shrinks (oneOf_consumes _).shrinks) ?_))
    (map_consumes (pair_consumes (map_consumes (regexChar_consumes h)) ?_))
  · exact opt_shrinks (oneOf_consumes _).shrinks
  · exact opt_shrinks (oneOf_consumes _).shrinks

theorem sequence_consumes (h : Segmentation cl) {e : P RegexTree} (he : Consumes e) : Consumes (sequence cl e) :=
  map_consumes (many1_consumes (itemP_consumes h he))

theorem expression_consumes (h : Segmentation cl) : ∀ d, Consumes (expression cl d)
  | 0 => fun _ _ _ hs => by cases hs
  | d + 1 => map_consumes (separatedList1_consumes (oneOf_consumes _) (sequence_consumes h (expression_consumes h d)))

theorem itemP_sound (h : Segmentation cl) {e : P RegexTree} (he : ∀ s t r, e s = some (t, r) → ExprL cl s r t.denote t.graphemes)
    {s r : Str} {t : RegexTree} (hs : itemP cl e s = some (t, r)) : ItemL cl s r t.denote t.graphemes := by
  rw [itemP_eq] at hs
  obtain ⟨⟨t', o⟩, h1, rfl⟩ := map_some.1 hs
  obtain ⟨m, h2, h3⟩ := pair_some.1 h1
  have ha : AtomL cl s m t'.denote t'.graphemes := by
    rcases alt_some.1 h2 with h4 | ⟨_, h4⟩
    · obtain ⟨a, c, m1, m2, h5, h6, h7⟩ := delimited_some.1 h4
      obtain ⟨h8, rfl⟩ := oneOf_some.1 h5
      obtain ⟨h9, rfl⟩ := oneOf_some.1 h7
      rw [List.mem_singleton.1 h8]
      rw [List.mem_singleton.1 h9] at h6
      exact .par (he _ _ _ h6)
    · obtain ⟨c, h5, rfl⟩ := map_some.1 h4
      exact regexChar_sound h h5
  rcases opt_some.1 h3 with ⟨c, h4, h5⟩ | ⟨h4, rfl, _⟩
  · simp only at h4
    subst h4
    obtain ⟨h6, rfl⟩ := oneOf_some.1 h5
    simp only [List.mem_cons, List.not_mem_nil, or_false] at h6
    rcases h6 with rfl | rfl
    · have : applyKleene (t', some '+') = .seq [t', .rep t'] := rfl
      rw [this, denote, denoteSeq, denoteSeq_single, denote, graphemes, graphemesList, graphemesList_single, graphemes]
      exact .plus ha
    · have : applyKleene (t', some '*') = .rep t' := rfl
      rw [this, denote, graphemes]
      exact .star ha
  · simp only at h4
    subst h4
    exact .atom ha

theorem chain_sound (h : Segmentation cl) {e : P RegexTree} (he : ∀ s t r, e s = some (t, r) → ExprL cl s r t.denote t.graphemes)
    {s r : Str} {ts : List RegexTree} (hc : Chain (itemP cl e) s ts r) (hne : ts ≠ []) : SeqL cl s r (denoteSeq ts) (graphemesList ts) := by
  induction hc with
  | nil => exact absurd rfl hne
  | cons h1 h2 ih =>
    rename_i s m r t ts
    cases ts with
    | nil =>
      cases h2
      rw [denoteSeq_single, graphemesList_single]
      exact .one (itemP_sound h he h1)
    | cons t' ts' =>
      rw [denoteSeq, graphemesList]
      exact .cons (itemP_sound h he h1) (ih (by simp))

theorem sequence_sound (h : Segmentation cl) {e : P RegexTree} (hce : Consumes e)
    (he : ∀ s t r, e s = some (t, r) → ExprL cl s r t.denote t.graphemes) {s r : Str} {t : RegexTree} (hs : sequence cl e s = some (t, r)) :
    SeqL cl s r t.denote t.graphemes := by
  obtain ⟨ts, h1, rfl⟩ := map_some.1 hs
  obtain ⟨hne, hc, _⟩ := (many1_iff (itemP_consumes h hce)).1 h1
  rw [denote_wrap_seq hne, graphemes_wrap_seq hne]
  exact chain_sound h he hc hne

theorem altChain_sound {q : P RegexTree} (hq : ∀ s t r, q s = some (t, r) → SeqL cl s r t.denote t.graphemes)
    {s m r : Str} {t : RegexTree} {ts : List RegexTree} (h1 : q s = some (t, m)) (hc : Chain (preceded (oneOf ['|']) q) m ts r) :
    ExprL cl s r (denoteAlt (t :: ts)) (graphemesList (t :: ts)) := by
  induction hc generalizing s t with
  | nil => rw [denoteAlt_single, graphemesList_single]; exact .one (hq _ _ _ h1)
  | cons h2 _ ih =>
    obtain ⟨a, m1, h3, h4⟩ := preceded_some.1 h2
    obtain ⟨h5, rfl⟩ := oneOf_some.1 h3
    rw [List.mem_singleton.1 h5] at h1
    rw [denoteAlt, graphemesList]
    exact .alt (hq _ _ _ h1) (ih h4)

theorem expression_sound (h : Segmentation cl) : ∀ (d : Nat) (s : Str) (t : RegexTree) (r : Str), expression cl d s = some (t, r) →
    ExprL cl s r t.denote t.graphemes
  | 0, _, _, _, hs => by cases hs
  | d + 1, s, t, r, hs => by
    obtain ⟨ts, h1, rfl⟩ := map_some.1 hs
    have hce := expression_consumes h d
    obtain ⟨a, as, m, rfl, h2, h3, _⟩ := (separatedList1_iff (oneOf_consumes _) (sequence_consumes h hce).shrinks).1 h1
    rw [denote_wrap_alt (by simp), graphemes_wrap_alt (by simp)]
    exact altChain_sound (fun s t r => sequence_sound h hce (expression_sound h d)) h2 h3

/-- A text with which an atom can begin. -/
def Starts (s : Str) : Prop := ∃ c s', s = c :: s' ∧ c ≠ ')' ∧ c ≠ '|' ∧ c ≠ '*' ∧ c ≠ '+'

/-- A text that can follow a sequence. -/
def Follows (r : Str) : Prop := ∀ c ∈ r.head?, c = ')' ∨ c = '|'

theorem regexChar_follow {r : Str} (hr : ∀ c ∈ r.head?, c = ')' ∨ c = '|') (h : Segmentation cl) : regexChar cl r = none := by
  unfold regexChar emptyLang emptyStr escapedChar normalChar
  rw [alt_none, alt_none, alt_none, value_none, value_none, oneOf_none, oneOf_none, preceded_none, verify_none]
  refine ⟨?_, ?_, Or.inl ?_, ?_⟩
  · intro c hc; rcases hr c hc with rfl | rfl <;> decide
  · intro c hc; rcases hr c hc with rfl | rfl <;> decide
  · rw [oneOf_none]
    intro c hc; rcases hr c hc with rfl | rfl <;> decide
  · cases r with
    | nil => exact Or.inl rfl
    | cons c r =>
      refine Or.inr ⟨_, _, oneCluster_some.2 ⟨by simp, rfl, rfl⟩, ?_⟩
      simp only [head_take h]
      rcases hr c rfl with rfl | rfl <;> decide

theorem itemP_follow {r : Str} (hr : Follows r) (h : Segmentation cl) (e : P RegexTree) : itemP cl e r = none := by
  rw [itemP_eq, map_none, pair_none]
  refine Or.inl ?_
  unfold atomP
  rw [alt_none, map_none]
  refine ⟨?_, regexChar_follow hr h⟩
  unfold delimited
  rw [preceded_none, oneOf_none]
  left
  intro c hc; rcases hr c hc with rfl | rfl <;> decide

theorem starts_noKleene {s : Str} (h : Starts s) : ∀ c ∈ s.head?, c ∉ ['+', '*'] := by
  obtain ⟨c, s', rfl, _, _, h3, h4⟩ := h
  intro d hd
  cases hd
  simp [h3, h4]

theorem follows_noKleene {s : Str} (h : Follows s) : ∀ c ∈ s.head?, c ∉ ['+', '*'] := by
  intro c hc; rcases h c hc with rfl | rfl <;> decide

theorem item_complete {e : P RegexTree} {s r : Str} {t : RegexTree} (h1 : atomP cl e s = some (t, r))
    (hr : ∀ c ∈ r.head?, c ∉ ['+', '*']) : itemP cl e s = some (t, r) := by
  rw [itemP_eq]
  exact map_some.2 ⟨(t, none), pair_some.2 ⟨r, h1, opt_some.2 (Or.inr ⟨rfl, rfl, oneOf_none.2 hr⟩)⟩, rfl⟩

theorem item_complete_star {e : P RegexTree} {s r : Str} {t : RegexTree} (h1 : atomP cl e s = some (t, '*' :: r)) :
    itemP cl e s = some (.rep t, r) := by
  rw [itemP_eq]
  exact map_some.2 ⟨(t, some '*'), pair_some.2 ⟨_, h1, opt_some.2 (Or.inl ⟨'*', rfl, oneOf_some.2 ⟨by decide, rfl⟩⟩)⟩, rfl⟩

theorem item_complete_plus {e : P RegexTree} {s r : Str} {t : RegexTree} (h1 : atomP cl e s = some (t, '+' :: r)) :
    itemP cl e s = some (.seq [t, .rep t], r) := by
  rw [itemP_eq]
  exact map_some.2 ⟨(t, some '+'), pair_some.2 ⟨_, h1, opt_some.2 (Or.inl ⟨'+', rfl, oneOf_some.2 ⟨by decide, rfl⟩⟩)⟩, rfl⟩

/-- Characters at the beginning of an atom that is not parenthesised. -/
theorem atom_of_char {e : P RegexTree} {c : Char} {s r : Str} {x : RegexChar} (hc : c ≠ '(') (h : regexChar cl (c :: s) = some (x, r)) :
    atomP cl e (c :: s) = some (.chr x, r) := by
  refine alt_some.2 (Or.inr ⟨?_, map_some.2 ⟨x, h, rfl⟩⟩)
  unfold delimited
  rw [preceded_none, oneOf_none]
  left
  intro d hd
  cases hd
  simpa using hc

theorem regexChar_eps (s : Str) : regexChar cl ('ε' :: s) = some (.epsilon, s) :=
  alt_some.2 (Or.inr ⟨value_none.2 (oneOf_none.2 (by intro c hc; cases hc; decide)),
    alt_some.2 (Or.inl (value_some.2 ⟨'ε', oneOf_some.2 ⟨by decide, rfl⟩, rfl⟩))⟩)

theorem regexChar_empty (s : Str) : regexChar cl ('∅' :: s) = some (.empty, s) :=
  alt_some.2 (Or.inl (value_some.2 ⟨'∅', oneOf_some.2 ⟨by decide, rfl⟩, rfl⟩))

theorem regexChar_esc {s : Str} (h : s ≠ []) : regexChar cl ('\\' :: s) = some (.grapheme (s.take (cl s)), s.drop (cl s)) :=
  alt_some.2 (Or.inr ⟨value_none.2 (oneOf_none.2 (by intro c hc; cases hc; decide)),
    alt_some.2 (Or.inr ⟨value_none.2 (oneOf_none.2 (by intro c hc; cases hc; decide)),
      alt_some.2 (Or.inl (preceded_some.2 ⟨'\\', s, oneOf_some.2 ⟨by decide, rfl⟩, oneCluster_some.2 ⟨h, rfl, rfl⟩⟩))⟩)⟩)

theorem regexChar_plain (h : Segmentation cl) {c : Char} {s : Str} (hc : ¬ IsReserved c) :
    regexChar cl (c :: s) = some (.grapheme ((c :: s).take (cl (c :: s))), (c :: s).drop (cl (c :: s))) := by
  have h1 : c ≠ '∅' := fun h => hc (by rw [h]; unfold IsReserved; simp)
  have h2 : c ≠ 'ε' := fun h => hc (by rw [h]; unfold IsReserved; simp)
  have h3 : c ≠ '\\' := fun h => hc (by rw [h]; unfold IsReserved; simp)
  refine alt_some.2 (Or.inr ⟨value_none.2 (oneOf_none.2 ?_), alt_some.2 (Or.inr ⟨value_none.2 (oneOf_none.2 ?_), alt_some.2 (Or.inr
    ⟨preceded_none.2 (Or.inl (oneOf_none.2 ?_)), verify_some.2 ⟨oneCluster_some.2 ⟨by simp, rfl, rfl⟩, ?_⟩⟩)⟩)⟩)
  · intro d hd; cases hd; simpa using h1
  · intro d hd; cases hd; simpa using h2
  · intro d hd; cases hd; simpa using h3
  · simp only [Bool.not_eq_true', head_take h]
    rw [Bool.eq_false_iff]
    exact fun hr => hc ((reserved_iff c).1 hr)

theorem expr_complete_aux (h : Segmentation cl) {s r : Str} {L : Language Str} {gs : List Str} (hl : ExprL cl s r L gs) :
    Starts s ∧ r.length < s.length ∧ ∀ d, s.length ≤ d → (∀ c ∈ r.head?, c = ')') →
      ∃ t m ts, sequence cl (expression cl d) s = some (t, m) ∧
        Chain (preceded (oneOf ['|']) (sequence cl (expression cl d))) m ts r ∧ denoteAlt (t :: ts) = L ∧ graphemesList (t :: ts) = gs := by
  refine ExprL.rec
    (motive_1 := fun s r L gs _ => Starts s ∧ r.length < s.length ∧ ∀ d, s.length ≤ d →
      ∃ t, atomP cl (expression cl d) s = some (t, r) ∧ t.denote = L ∧ t.graphemes = gs)
    (motive_2 := fun s r L gs _ => Starts s ∧ r.length < s.length ∧ ∀ d, s.length ≤ d → (∀ c ∈ r.head?, c ∉ ['+', '*']) →
      ∃ t, itemP cl (expression cl d) s = some (t, r) ∧ t.denote = L ∧ t.graphemes = gs)
    (motive_3 := fun s r L gs _ => Starts s ∧ r.length < s.length ∧ ∀ d, s.length ≤ d → Follows r →
      ∃ ts, ts ≠ [] ∧ Chain (itemP cl (expression cl d)) s ts r ∧ denoteSeq ts = L ∧ graphemesList ts = gs)
    (motive_4 := fun s r L gs _ => Starts s ∧ r.length < s.length ∧ ∀ d, s.length ≤ d → (∀ c ∈ r.head?, c = ')') →
      ∃ t m ts, sequence cl (expression cl d) s = some (t, m) ∧
        Chain (preceded (oneOf ['|']) (sequence cl (expression cl d))) m ts r ∧ denoteAlt (t :: ts) = L ∧ graphemesList (t :: ts) = gs)
    ?_ ?_ ?_ ?_ ?_ ?_ ?_ ?_ ?_ ?_ ?_ ?_ hl
  · -- par
    rintro s r L gs _ ⟨_, h2, h3⟩
    refine ⟨⟨'(', s, rfl, by decide, by decide, by decide, by decide⟩, by simp at h2 ⊢; omega, fun d hd => ?_⟩
    simp only [List.length_cons] at hd
    obtain ⟨d, rfl⟩ : ∃ d', d = d' + 1 := ⟨d - 1, by omega⟩
    obtain ⟨t, m, ts, h4, h5, h6⟩ := h3 d (by omega) (by intro c hc; cases hc; rfl)
    have hce := expression_consumes h d
    have h7 : expression cl (d + 1) s = some (wrapMultiple .alt (t :: ts), ')' :: r) := by
      refine map_some.2 ⟨t :: ts, (separatedList1_iff (oneOf_consumes _) (sequence_consumes h hce).shrinks).2
        ⟨t, ts, m, rfl, h4, h5, preceded_none.2 (Or.inl (oneOf_none.2 ?_))⟩, rfl⟩
      intro c hc; cases hc; decide
    refine ⟨_, alt_some.2 (Or.inl (delimited_some.2 ⟨'(', ')', s, ')' :: r, oneOf_some.2 ⟨by decide, rfl⟩, h7,
      oneOf_some.2 ⟨by decide, rfl⟩⟩)), ?_⟩
    rw [denote_wrap_alt (by simp), graphemes_wrap_alt (by simp)]; exact h6
  · intro r
    exact ⟨⟨'ε', r, rfl, by decide, by decide, by decide, by decide⟩, by simp, fun d _ =>
      ⟨_, atom_of_char (by decide) (regexChar_eps r), by rw [denote], by rw [graphemes]⟩⟩
  · intro r
    exact ⟨⟨'∅', r, rfl, by decide, by decide, by decide, by decide⟩, by simp, fun d _ =>
      ⟨_, atom_of_char (by decide) (regexChar_empty r), by rw [denote], by rw [graphemes]⟩⟩
  · intro s hs
    exact ⟨⟨'\\', s, rfl, by decide, by decide, by decide, by decide⟩, by simp; omega, fun d _ =>
      ⟨_, atom_of_char (by decide) (regexChar_esc hs), by rw [denote], by rw [graphemes]⟩⟩
  · intro c s hc
    have hp := h.pos (c :: s) (by simp)
    have hr : ∀ x, IsReserved x → c ≠ x := fun x hx he => hc (he ▸ hx)
    refine ⟨⟨c, s, rfl, hr _ ?_, hr _ ?_, hr _ ?_, hr _ ?_⟩, by simp; omega, fun d _ =>
      ⟨_, atom_of_char (hr _ ?_) (regexChar_plain h hc), by rw [denote], by rw [graphemes]⟩⟩ <;> (unfold IsReserved; simp)
  · -- item, atom
    rintro s r L gs _ ⟨h1, h2, h3⟩
    refine ⟨h1, h2, fun d hd hr => ?_⟩
    obtain ⟨t, h4, h5⟩ := h3 d hd
    exact ⟨t, item_complete h4 hr, h5⟩
  · rintro s r L gs _ ⟨h1, h2, h3⟩
    refine ⟨h1, by simp at h2; omega, fun d hd hr => ?_⟩
    obtain ⟨t, h4, rfl, rfl⟩ := h3 d hd
    exact ⟨_, item_complete_star h4, by rw [denote], by rw [graphemes]⟩
  · rintro s r L gs _ ⟨h1, h2, h3⟩
    refine ⟨h1, by simp at h2; omega, fun d hd hr => ?_⟩
    obtain ⟨t, h4, rfl, rfl⟩ := h3 d hd
    exact ⟨_, item_complete_plus h4, by rw [denote, denoteSeq, denoteSeq_single, denote],
      by rw [graphemes, graphemesList, graphemesList_single, graphemes]⟩
  · rintro s r L gs _ ⟨h1, h2, h3⟩
    refine ⟨h1, h2, fun d hd hr => ?_⟩
    obtain ⟨t, h4, rfl, rfl⟩ := h3 d hd (follows_noKleene hr)
    exact ⟨[t], by simp, .cons h4 (.nil r), denoteSeq_single t, graphemesList_single t⟩
  · rintro s m r L M gs hs _ _ ⟨h1, h2, h3⟩ ⟨h4, h5, h6⟩
    refine ⟨h1, by omega, fun d hd hr => ?_⟩
    obtain ⟨t, h7, rfl, rfl⟩ := h3 d hd (starts_noKleene h4)
    obtain ⟨ts, _, h9, rfl, rfl⟩ := h6 d (by omega) hr
    exact ⟨t :: ts, by simp, .cons h7 h9, by rw [denoteSeq], by rw [graphemesList]⟩
  · rintro s r L gs _ ⟨h1, h2, h3⟩
    refine ⟨h1, h2, fun d hd hr => ?_⟩
    have hf : Follows r := fun c hc => Or.inl (hr c hc)
    obtain ⟨ts, h4, h5, rfl, rfl⟩ := h3 d hd hf
    refine ⟨_, r, [], map_some.2 ⟨ts, (many1_iff (itemP_consumes h (expression_consumes h d))).2 ⟨h4, h5, itemP_follow hf h _⟩, rfl⟩,
      .nil r, ?_⟩
    rw [denoteAlt_single, denote_wrap_seq h4, graphemesList_single, graphemes_wrap_seq h4]
    exact ⟨rfl, rfl⟩
  · rintro s m r L M gs hs _ _ ⟨h1, h2, h3⟩ ⟨h4, h5, h6⟩
    simp only [List.length_cons] at h2
    refine ⟨h1, by omega, fun d hd hr => ?_⟩
    have hf : Follows ('|' :: m) := fun c hc => by cases hc; exact Or.inr rfl
    obtain ⟨ts, h7, h8, rfl, rfl⟩ := h3 d hd hf
    obtain ⟨t, m', ts', h9, h10, rfl, rfl⟩ := h6 d (by omega) hr
    refine ⟨_, '|' :: m, t :: ts', map_some.2 ⟨ts, (many1_iff (itemP_consumes h (expression_consumes h d))).2
      ⟨h7, h8, itemP_follow hf h _⟩, rfl⟩, .cons (preceded_some.2 ⟨'|', m, oneOf_some.2 ⟨by decide, rfl⟩, h9⟩) h10, ?_⟩
    rw [denoteAlt, denote_wrap_seq h7, graphemesList, graphemes_wrap_seq h7]
    exact ⟨rfl, rfl⟩

theorem expression_complete (h : Segmentation cl) {s : Str} {L : Language Str} {gs : List Str} (hl : ExprL cl s [] L gs) {d : Nat} (hd : s.length < d) :
    ∃ t, expression cl d s = some (t, []) ∧ t.denote = L ∧ t.graphemes = gs := by
  obtain ⟨d, rfl⟩ : ∃ d', d = d' + 1 := ⟨d - 1, by omega⟩
  obtain ⟨_, _, h3⟩ := expr_complete_aux h hl
  obtain ⟨t, m, ts, h4, h5, h6⟩ := h3 d (by omega) (by intro c hc; cases hc)
  refine ⟨_, map_some.2 ⟨t :: ts, (separatedList1_iff (oneOf_consumes _) (sequence_consumes h (expression_consumes h d)).shrinks).2
    ⟨t, ts, m, rfl, h4, h5, preceded_none.2 (Or.inl (oneOf_none.2 (by intro c hc; cases hc)))⟩, rfl⟩, ?_⟩
  rw [denote_wrap_alt (by simp), graphemes_wrap_alt (by simp)]; exact h6

theorem whitespace_iff (c : Char) : isWhitespace c = true ↔ WhiteSpace c := by
  unfold isWhitespace WhiteSpace
  simp only [Bool.or_eq_true, Bool.and_eq_true, decide_eq_true_eq, beq_iff_eq, List.mem_cons, List.not_mem_nil, or_false]
  omega

theorem dropWhile_append_all {p : Char → Bool} {a b : Str} (ha : ∀ c ∈ a, p c = true) (hb : ∀ c ∈ b.head?, p c = false) :
    (a ++ b).dropWhile p = b := by
  induction a with
  | nil =>
    cases b with
    | nil => rfl
    | cons c b => simp [hb c rfl]
  | cons x a ih =>
    rw [List.cons_append, List.dropWhile_cons_of_pos (ha x List.mem_cons_self)]
    exact ih fun c hc => ha c (List.mem_cons_of_mem _ hc)

/-- `str::trim` removes exactly the white space around the text. -/
theorem trim_eq {text core : Str} (h : Trimmed text core) : trim text = core := by
  obtain ⟨a, b, rfl, ha, hb, h1, h2⟩ := h
  unfold trim
  have hno : ∀ c, ¬ WhiteSpace c → isWhitespace c = false := fun c hc => by
    rw [Bool.eq_false_iff]; exact fun h => hc ((whitespace_iff c).1 h)
  by_cases hc : core = []
  · subst hc
    have : (a ++ [] ++ b).dropWhile isWhitespace = [] := by
      have := dropWhile_append_all (p := isWhitespace) (a := a ++ b) (b := []) (by
        intro c hc
        rcases List.mem_append.1 hc with hc | hc
        · exact (whitespace_iff c).2 (ha c hc)
        · exact (whitespace_iff c).2 (hb c hc)) (by intro c hc; cases hc)
      simpa using this
    rw [this]; rfl
  · rw [List.append_assoc, dropWhile_append_all (fun c hc => (whitespace_iff c).2 (ha c hc)), List.reverse_append,
      dropWhile_append_all (fun c hc => (whitespace_iff c).2 (hb c (List.mem_reverse.1 hc))), List.reverse_reverse]
    · intro c hc'
      rw [List.head?_reverse] at hc'
      exact hno c (h2 c hc')
    · intro c hc'
      rw [List.head?_append_of_ne_nil _ hc] at hc'
      exact hno c (h1 c hc')

theorem dropWhile_spec (p : Char → Bool) (s : Str) :
    ∃ a, s = a ++ s.dropWhile p ∧ (∀ c ∈ a, p c = true) ∧ ∀ c ∈ (s.dropWhile p).head?, p c = false := by
  refine ⟨s.takeWhile p, (List.takeWhile_append_dropWhile).symm, fun c hc => ?_, fun c hc => ?_⟩
  · have := List.all_takeWhile (p := p) (l := s)
    rw [List.all_eq_true] at this
    exact this c hc
  · have := List.head?_dropWhile_not p s
    rw [Option.mem_def.1 hc] at this
    simpa using this

theorem trimmed_trim (text : Str) : Trimmed text (trim text) := by
  obtain ⟨a, h1, h2, h3⟩ := dropWhile_spec isWhitespace text
  obtain ⟨b, h4, h5, h6⟩ := dropWhile_spec isWhitespace (text.dropWhile isWhitespace).reverse
  have e : text.dropWhile isWhitespace = trim text ++ b.reverse := by
    have := congrArg List.reverse h4
    rw [List.reverse_reverse, List.reverse_append] at this
    exact this
  have hno : ∀ c, isWhitespace c = false → ¬ WhiteSpace c := fun c hc h => by rw [(whitespace_iff c).2 h] at hc; cases hc
  refine ⟨a, b.reverse, by rw [List.append_assoc, ← e]; exact h1, fun c hc => (whitespace_iff c).1 (h2 c hc),
    fun c hc => (whitespace_iff c).1 (h5 c (List.mem_reverse.1 hc)), fun c hc => hno c (h3 c ?_), fun c hc => hno c (h6 c ?_)⟩
  · rw [e]
    rw [List.head?_append_of_ne_nil]
    · exact hc
    · intro h; rw [h] at hc; cases hc
  · unfold trim at hc
    rwa [List.getLast?_reverse] at hc

/-! ## The bound on the nesting does not matter -/

theorem many0Loop_congr {α : Type} {p q : P α} {n : Nat} (hp : Shrinks p) (h : ∀ s, s.length ≤ n → p s = q s) :
    ∀ (fuel : Nat) (s : Str), s.length ≤ n → many0Loop p fuel s = many0Loop q fuel s
  | 0, _, _ => rfl
  | fuel + 1, s, hs => by
    rw [many0Loop, many0Loop, ← h s hs]
    cases h1 : p s with
    | none => rfl
    | some x =>
      obtain ⟨a, r⟩ := x
      have := hp _ _ _ h1
      simp only [many0Loop_congr hp h fuel r (by omega)]

theorem sepLoop_congr {α β : Type} {sep : P β} {p q : P α} {n : Nat} (hsep : Shrinks sep) (hp : Shrinks p)
    (h : ∀ s, s.length ≤ n → p s = q s) : ∀ (fuel : Nat) (s : Str), s.length ≤ n → sepLoop sep p fuel s = sepLoop sep q fuel s
  | 0, _, _ => rfl
  | fuel + 1, s, hs => by
    rw [sepLoop, sepLoop]
    cases h1 : sep s with
    | none => rfl
    | some x =>
      obtain ⟨a, r⟩ := x
      have := hsep _ _ _ h1
      simp only [← h r (by omega)]
      cases h2 : p r with
      | none => rfl
      | some y =>
        obtain ⟨b, r'⟩ := y
        have := hp _ _ _ h2
        simp only [sepLoop_congr hsep hp h fuel r' (by omega)]

theorem expression_depth (h : Segmentation cl) : ∀ (n : Nat) (s : Str), s.length ≤ n → ∀ d d', n < d → n < d' →
    expression cl d s = expression cl d' s
  | n, s, hs, d, d', hd, hd' => by
    obtain ⟨d, rfl⟩ : ∃ e, d = e + 1 := ⟨d - 1, by omega⟩
    obtain ⟨d', rfl⟩ : ∃ e, d' = e + 1 := ⟨d' - 1, by omega⟩
    have hitem : ∀ s, s.length ≤ n → itemP cl (expression cl d) s = itemP cl (expression cl d') s := by
      intro s hs
      rw [itemP_eq, itemP_eq]
      have hat : atomP cl (expression cl d) s = atomP cl (expression cl d') s := by
        unfold atomP P.alt
        have : delimited (oneOf ['(']) (expression cl d) (oneOf [')']) s = delimited (oneOf ['(']) (expression cl d') (oneOf [')']) s := by
          unfold delimited preceded terminated P.map P.pair
          cases h1 : oneOf ['('] s with
          | none => rfl
          | some x =>
            obtain ⟨a, r⟩ := x
            have hlt := oneOf_consumes _ _ _ _ h1
            match n, hd, hd', hs with
            | 0, _, _, hs => omega
            | n + 1, hd, hd', hs =>
              simp only [expression_depth h n r (by omega) d d' (by omega) (by omega)]
        simp only [this]
      unfold P.map P.pair
      simp only [hat]
    have hcd := expression_consumes h d
    have hseq : ∀ s, s.length ≤ n → sequence cl (expression cl d) s = sequence cl (expression cl d') s := by
      intro s hs
      unfold sequence many1 P.map P.pair
      have e1 := hitem s hs
      have hsh := itemP_consumes h hcd
      unfold itemP at e1 hsh
      simp only [← e1]
      cases h1 : P.alt (parExpr (expression cl d)) (combinatedChar cl) s with
      | none => rfl
      | some x =>
        obtain ⟨a, r⟩ := x
        have := hsh _ _ _ h1
        have e2 := many0Loop_congr (p := itemP cl (expression cl d)) (q := itemP cl (expression cl d')) (n := n)
          (itemP_consumes h hcd).shrinks hitem (r.length + 1) r (by omega)
        unfold itemP at e2
        unfold many0
        simp only [e2]
    have hshr := (sequence_consumes h hcd).shrinks
    rw [expression, expression]
    unfold alternation separatedList1 P.map
    simp only [← hseq s hs]
    cases h1 : sequence cl (expression cl d) s with
    | none => rfl
    | some x =>
      obtain ⟨a, r⟩ := x
      have := hshr _ _ _ h1
      simp only [sepLoop_congr (sep := oneOf ['|']) (oneOf_consumes _).shrinks hshr hseq (r.length + 1) r (by omega)]

end Dandy
