import Verif.Proofs.ErrorTexts
import Verif.Proofs.Names

/-! # Messages of errors can be read back -/

namespace Dandy
namespace Messages

/-- The text before the first occurrence of a character. -/
theorem cut {c : Char} {a b x y : Str} (ha : c ∉ a) (hb : c ∉ b) (h : a ++ c :: x = b ++ c :: y) : a = b ∧ x = y := by
  induction a generalizing b with
  | nil =>
    cases b with
    | nil => exact ⟨rfl, (List.cons.inj h).2⟩
    | cons d b => exact absurd (List.mem_cons.2 (.inl (List.cons.inj h).1)) hb
  | cons d a ih =>
    cases b with
    | nil => exact absurd (List.mem_cons.2 (.inl (List.cons.inj h).1.symm)) ha
    | cons e b =>
      obtain ⟨rfl, h'⟩ := List.cons.inj h
      obtain ⟨rfl, rfl⟩ := ih (fun hc => ha (List.mem_cons_of_mem _ hc)) (fun hc => hb (List.mem_cons_of_mem _ hc)) h'
      exact ⟨rfl, rfl⟩

/-- The text before a blank. -/
theorem cut_app {c : Char} {s a b x y : Str} (ha : c ∉ a) (hb : c ∉ b) (hs : s.head? = some c) (h : a ++ (s ++ x) = b ++ (s ++ y)) :
    a = b ∧ x = y := by
  cases s with
  | nil => cases hs
  | cons d s =>
    cases hs
    obtain ⟨h1, h2⟩ := cut ha hb h
    exact ⟨h1, List.append_cancel_left h2⟩

theorem digitChar_inj {m n : Nat} (hm : m < 16) (hn : n < 16) (h : m.digitChar = n.digitChar) : m = n := by
  have : ∀ m : Fin 16, ∀ n : Fin 16, m.val.digitChar = n.val.digitChar → m.val = n.val := by decide
  exact this ⟨m, hm⟩ ⟨n, hn⟩ h

theorem hexStr_inj {m n : Nat} (h : hexStr m = hexStr n) : m = n := by
  unfold hexStr at h
  induction m using Nat.strongRecOn generalizing n with
  | ind m ih =>
    by_cases hm : m < 16 <;> by_cases hn : n < 16
    · rw [Nat.toDigits_of_lt_base hm, Nat.toDigits_of_lt_base hn] at h
      exact digitChar_inj hm hn (List.cons.inj h).1
    · rw [Nat.toDigits_of_lt_base hm, Nat.toDigits_of_base_le (by omega) (by omega)] at h
      have := congrArg List.length h
      have h0 : Nat.toDigits 16 (n / 16) ≠ [] := Nat.toDigits_ne_nil
      have := List.length_pos_iff.2 h0
      simp at *
    · rw [Nat.toDigits_of_lt_base hn, Nat.toDigits_of_base_le (by omega) (by omega)] at h
      have := congrArg List.length h
      have h0 : Nat.toDigits 16 (m / 16) ≠ [] := Nat.toDigits_ne_nil
      have := List.length_pos_iff.2 h0
      simp at *
    · rw [Nat.toDigits_of_base_le (by omega) (by omega : 16 ≤ m), Nat.toDigits_of_base_le (by omega) (by omega : 16 ≤ n)] at h
      obtain ⟨h1, h2⟩ := List.append_inj' h rfl
      have h1 := ih (m / 16) (by omega) h1
      have h2 := digitChar_inj (Nat.mod_lt _ (by omega)) (Nat.mod_lt _ (by omega)) (List.cons.inj h2).1
      omega

theorem digits_mem {b n : Nat} (hb : 1 < b) (hb' : b ≤ 16) : ∀ c ∈ Nat.toDigits b n, ∃ k < 16, c = k.digitChar := by
  induction n using Nat.strongRecOn with
  | ind n ih =>
    intro c hc
    by_cases hn : n < b
    · rw [Nat.toDigits_of_lt_base hn] at hc
      exact ⟨n, by omega, List.mem_singleton.1 hc⟩
    · rw [Nat.toDigits_of_base_le hb (by omega)] at hc
      rcases List.mem_append.1 hc with hc | hc
      · exact ih _ (Nat.div_lt_self (by omega) hb) c hc
      · exact ⟨n % b, by have := Nat.mod_lt n (show b > 0 by omega); omega, List.mem_singleton.1 hc⟩

theorem digits_not {b n : Nat} (hb : 1 < b) (hb' : b ≤ 16) {c : Char} (hc : ∀ k < 16, c ≠ k.digitChar) : c ∉ Nat.toDigits b n :=
  fun h => by obtain ⟨k, hk, rfl⟩ := digits_mem hb hb' c h; exact hc k hk rfl

theorem numStr_blank (n : Nat) : ' ' ∉ numStr n := digits_not (by omega) (by omega) (by decide)

theorem hexStr_brace (n : Nat) : '}' ∉ hexStr n := digits_not (by omega) (by omega) (by decide)

/-- The ways in which a character appears. -/
theorem debugChar_cases (plain : Char → Bool) (c : Char) :
    (∃ d, debugChar plain c = ['\\', d] ∧ d ≠ 'u' ∧ (d, c) ∈ [('0', '\x00'), ('t', '\t'), ('r', '\r'), ('n', '\n'), ('\\', '\\'), ('"', '"')]) ∨
    (debugChar plain c = [c] ∧ c ≠ '\\' ∧ c ≠ '"') ∨ debugChar plain c = '\\' :: 'u' :: '{' :: (hexStr c.toNat ++ ['}']) := by
  unfold debugChar
  split
  · rename_i h; subst h; exact .inl ⟨_, rfl, by decide, by decide⟩
  split
  · rename_i h; subst h; exact .inl ⟨_, rfl, by decide, by decide⟩
  split
  · rename_i h; subst h; exact .inl ⟨_, rfl, by decide, by decide⟩
  split
  · rename_i h; subst h; exact .inl ⟨_, rfl, by decide, by decide⟩
  split
  · rename_i h; subst h; exact .inl ⟨_, rfl, by decide, by decide⟩
  split
  · rename_i h; subst h; exact .inl ⟨_, rfl, by decide, by decide⟩
  split
  · rename_i h1 h2 _; exact .inr (.inl ⟨rfl, h1, h2⟩)
  · exact .inr (.inr rfl)

theorem toNat_inj {c d : Char} (h : c.toNat = d.toNat) : c = d := by
  rw [← Char.ofNat_toNat c, ← Char.ofNat_toNat d, h]

theorem debugChar_inj {plain : Char → Bool} {c d : Char} {x y : Str} (h : debugChar plain c ++ x = debugChar plain d ++ y) :
    c = d ∧ x = y := by
  rcases debugChar_cases plain c with ⟨k, h1, hk, hc⟩ | ⟨h1, hc, hc'⟩ | h1 <;>
    rcases debugChar_cases plain d with ⟨k', h2, hk', hd⟩ | ⟨h2, hd, hd'⟩ | h2 <;>
    rw [h1, h2] at h <;> simp only [List.cons_append, List.nil_append, List.append_assoc, List.cons.injEq] at h
  · obtain ⟨_, rfl, rfl⟩ := h
    refine ⟨?_, rfl⟩
    simp only [List.mem_cons, Prod.mk.injEq, List.not_mem_nil, or_false] at hc hd
    rcases hc with ⟨rfl, rfl⟩ | ⟨rfl, rfl⟩ | ⟨rfl, rfl⟩ | ⟨rfl, rfl⟩ | ⟨rfl, rfl⟩ | ⟨rfl, rfl⟩ <;> simpa [eq_comm] using hd
  · exact absurd h.1.symm hd
  · exact absurd h.2.1 hk
  · exact absurd h.1 hc
  · exact h
  · exact absurd h.1 hc
  · exact absurd h.2.1.symm hk'
  · exact absurd h.1.symm hd
  · obtain ⟨_, _, _, h⟩ := h
    obtain ⟨h1, h2⟩ := cut (hexStr_brace _) (hexStr_brace _) h
    exact ⟨toNat_inj (hexStr_inj h1), h2⟩

theorem debugChar_quote {plain : Char → Bool} {c : Char} {x y : Str} : debugChar plain c ++ x ≠ '"' :: y := by
  intro h
  rcases debugChar_cases plain c with ⟨k, h1, _, _⟩ | ⟨h1, _, hc'⟩ | h1 <;> rw [h1] at h <;>
    simp only [List.cons_append, List.nil_append, List.cons.injEq] at h
  · exact absurd h.1 (by decide)
  · exact hc' h.1
  · exact absurd h.1 (by decide)

theorem quoted_inj {plain : Char → Bool} {s t x y : Str} (h : s.flatMap (debugChar plain) ++ '"' :: x = t.flatMap (debugChar plain) ++ '"' :: y) :
    s = t ∧ x = y := by
  induction s generalizing t with
  | nil =>
    cases t with
    | nil => exact ⟨rfl, (List.cons.inj h).2⟩
    | cons d t => rw [List.flatMap_cons, List.append_assoc] at h; exact absurd h.symm debugChar_quote
  | cons c s ih =>
    cases t with
    | nil => rw [List.flatMap_cons, List.append_assoc] at h; exact absurd h debugChar_quote
    | cons d t =>
      rw [List.flatMap_cons, List.flatMap_cons, List.append_assoc, List.append_assoc] at h
      obtain ⟨rfl, h'⟩ := debugChar_inj h
      obtain ⟨rfl, rfl⟩ := ih h'
      exact ⟨rfl, rfl⟩

theorem code_inj {k l : ErrorKind} (h : k.text = l.text) : k = l := by
  cases k <;> cases l <;> first | rfl | exact absurd h (by decide)

theorem code_blank (k : ErrorKind) : ' ' ∉ k.text := by cases k <;> decide

theorem debug_inj {plain : Char → Bool} {e f : NomError} (h : e.debug plain = f.debug plain) : e = f := by
  unfold NomError.debug debugStr at h
  simp only [List.append_assoc, List.cons_append, List.nil_append, List.cons.injEq, true_and] at h
  obtain ⟨h1, h2⟩ := quoted_inj h
  simp only [List.cons.injEq, true_and] at h2
  have h3 := code_inj (List.append_cancel_right h2)
  cases e; cases f; simp_all

theorem text_inj {e f : NomError} (h : e.text = f.text) : e = f := by
  unfold NomError.text at h
  simp only [List.append_assoc] at h
  obtain ⟨h1, h2⟩ := cut_app (code_blank _) (code_blank _) rfl (List.append_cancel_left h)
  have h1 := code_inj h1
  cases e; cases f; simp_all

/-- The names in an error have no blanks. -/
def Plain : ParseError → Prop
  | .wrongNumberOfTransitions name _ _ => ' ' ∉ name
  | .transitionDoesNotExist name target => ' ' ∉ name ∧ ' ' ∉ target
  | .duplicateAlphabetSymbol x => ' ' ∉ x
  | .duplicateStateDefinition name => ' ' ∉ name
  | _ => True

theorem cut_quote {a b x y : Str} (ha : ' ' ∉ a) (hb : ' ' ∉ b) (h : a ++ '\'' :: ' ' :: x = b ++ '\'' :: ' ' :: y) : a = b ∧ x = y := by
  obtain ⟨h1, h2⟩ := cut (c := ' ') (a := a ++ ['\'']) (b := b ++ ['\'']) (x := x) (y := y) (by simpa using ha) (by simpa using hb) (by simpa using h)
  exact ⟨List.append_cancel_right h1, h2⟩

theorem cut_colon {a b x y : Str} (ha : ' ' ∉ a) (hb : ' ' ∉ b) (h : a ++ '\'' :: ':' :: ' ' :: x = b ++ '\'' :: ':' :: ' ' :: y) :
    a = b ∧ x = y := by
  obtain ⟨h1, h2⟩ := cut (c := ' ') (a := a ++ ['\'', ':']) (b := b ++ ['\'', ':']) (x := x) (y := y) (by simpa using ha) (by simpa using hb)
    (by simpa using h)
  exact ⟨List.append_cancel_right h1, h2⟩

open Cli in
theorem parseErrorText_inj {e f : ParseError} (he : Plain e) (hf : Plain f) (h : parseErrorText e = parseErrorText f) : e = f := by
  unfold parseErrorText at h
  cases e <;> cases f <;>
    simp only [List.append_assoc, List.cons_append, List.nil_append, List.cons.injEq, true_and, reduceCtorEq, false_and, Char.reduceEq] at h ⊢
  · obtain ⟨rfl, h1⟩ := cut_colon he hf h
    simp only [List.cons.injEq, true_and] at h1
    obtain ⟨h2, h3⟩ := cut (numStr_blank _) (numStr_blank _) h1
    simp only [List.cons.injEq, true_and] at h3
    rw [numStr_inj h2, numStr_inj h3]
  · obtain ⟨rfl, h1⟩ := cut_quote he.2 hf.2 h
    simp only [List.cons.injEq, true_and] at h1
    rw [List.append_cancel_right h1]
  · obtain ⟨rfl, h1⟩ := cut_quote he.2 hf h
    simp at h1
  · rw [(cut_quote he hf h).1]
  · obtain ⟨rfl, h1⟩ := cut_quote he hf.2 h
    simp at h1
  · rw [(cut_quote he hf h).1]

theorem name_blank {t : Str} (h : TableText.Name t) : ' ' ∉ t := fun hc => absurd (h.2.1 _ hc).1 (by decide)

open TableText in
theorem plain_dfa {p : ParsedDfa} {text : Str} (h : DfaText p text) {e : ParseError} (he : p.HasDefect e) : Plain e := by
  obtain ⟨_, _, h3, h4⟩ := C43_dfa_names text p (C42_dfa_complete _ _ h)
  cases e with
  | wrongNumberOfTransitions n a b => obtain ⟨_, _, s, hs, rfl, _⟩ := he; exact name_blank (h4 s hs).1
  | transitionDoesNotExist n t => obtain ⟨⟨s, hs, rfl, ht⟩, _⟩ := he; exact ⟨name_blank (h4 s hs).1, name_blank ((h4 s hs).2.2 t ht)⟩
  | missingInitialState => trivial
  | multipleInitialStates => trivial
  | duplicateAlphabetSymbol x => obtain ⟨i, j, _, h1, _⟩ := he; exact name_blank (h3 x (List.mem_of_getElem? h1))
  | duplicateStateDefinition n => obtain ⟨i, j, s, t, _, h1, _, rfl, _⟩ := he; exact name_blank (h4 s (List.mem_of_getElem? h1)).1

open TableText in
theorem plain_nfa {p : ParsedNfa} {text : Str} (h : NfaText p text) {e : ParseError} (he : p.HasDefect e) : Plain e := by
  obtain ⟨_, _, h3, h4⟩ := C43_nfa_names text p (C42_nfa_complete _ _ h)
  cases e with
  | wrongNumberOfTransitions n a b => obtain ⟨_, _, s, hs, rfl, _⟩ := he; exact name_blank (h4 s hs).1
  | transitionDoesNotExist n t => obtain ⟨⟨s, hs, rfl, ts, h5, ht⟩, _⟩ := he; exact ⟨name_blank (h4 s hs).1, name_blank ((h4 s hs).2.2 ts h5 t ht)⟩
  | missingInitialState => trivial
  | multipleInitialStates => trivial
  | duplicateAlphabetSymbol x =>
    obtain ⟨i, j, _, ⟨h1, _⟩ | ⟨rfl, _⟩⟩ := he
    · exact name_blank (h3 x (List.mem_of_getElem? h1))
    · unfold Plain; decide
  | duplicateStateDefinition n => obtain ⟨i, j, s, t, _, h1, _, rfl, _⟩ := he; exact name_blank (h4 s (List.mem_of_getElem? h1)).1

end Messages
end Dandy
