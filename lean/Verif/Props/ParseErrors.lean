import Verif.Proofs.RegexErrors
import Verif.Props.RegexParser
/-! # C81: the errors of the parsers point at the first wrong place -/

namespace Dandy
open Samples TableText

/-- **C81** `parser::dfa` gives an error exactly for the texts which are no tables. -/
theorem C81_dfa_error_iff (t : Str) : (∃ e, FaE.dfa t = .error e) ↔ ¬ ∃ p, DfaText p t := by
  cases h : FaE.dfa t with
  | error e =>
    refine ⟨fun _ => ?_, fun _ => ⟨e, rfl⟩⟩
    rintro ⟨p, hp⟩
    rw [FaE.dfa_ok.2 (fa_dfa_iff.2 hp)] at h
    cases h
  | ok p =>
    refine ⟨fun ⟨e, he⟩ => (by cases he), fun hn => absurd ⟨p, fa_dfa_iff.1 (FaE.dfa_ok.1 h)⟩ hn⟩

/-- **C81** The error is in the first line which is wrong, and the text before it can be completed to a table. -/
theorem C81_dfa (t : Str) (e : NomError) (h : FaE.dfa t = .error e) : FirstError False NameItem DfaRow t e := FaE.dfa_error h

/-- **C81** `parser::nfa` gives an error exactly for the texts which are no tables. -/
theorem C81_nfa_error_iff (t : Str) : (∃ e, FaE.nfa t = .error e) ↔ ¬ ∃ p, NfaText p t := by
  cases h : FaE.nfa t with
  | error e =>
    refine ⟨fun _ => ?_, fun _ => ⟨e, rfl⟩⟩
    rintro ⟨p, hp⟩
    rw [FaE.nfa_ok.2 (fa_nfa_iff.2 hp)] at h
    cases h
  | ok p =>
    refine ⟨fun ⟨e, he⟩ => (by cases he), fun hn => absurd ⟨p, fa_nfa_iff.1 (FaE.nfa_ok.1 h)⟩ hn⟩

/-- **C81** The same for tables of NFAs. -/
theorem C81_nfa (t : Str) (e : NomError) (h : FaE.nfa t = .error e) : FirstError True HeadItem NfaRow t e := FaE.nfa_error h

/-- **C81** The error of `parser::regex` is determined by the grammar: the text is empty, or no beginning of it is an expression, or the error
is what follows the longest beginning which is an expression. -/
theorem C81_regex (cl : Str → Nat) (h : Segmentation cl) (text core : Str) (ht : Trimmed text core) (e : NomError) :
    RegexE.regex cl text = .error e ↔ (core = [] ∧ e = ⟨[], .fail⟩) ∨
      (core ≠ [] ∧ (∀ r L gs, ¬ ExprL cl core r L gs) ∧ e = ⟨core, .verify⟩) ∨
      (e.code = .eof ∧ e.input ≠ [] ∧ (∃ L gs, ExprL cl core e.input L gs) ∧ ∀ r L gs, ExprL cl core r L gs → e.input.length ≤ r.length) :=
  RegexE.regex_error h ht

/-- **C81** What follows begins with one of six reserved characters. -/
theorem C81_regex_stops (cl : Str → Nat) (h : Segmentation cl) (text : Str) (e : NomError) (he : RegexE.regex cl text = .error e)
    (hc : e.code = .eof) : ∃ c r, e.input = c :: r ∧ (c = '|' ∨ c = '*' ∨ c = '+' ∨ c = '\\' ∨ c = '(' ∨ c = ')') := by
  have h1 := RegexE.regex_stops h he hc
  obtain ⟨_, h2⟩ | ⟨_, _, h2⟩ | ⟨_, h2, _⟩ := (RegexE.regex_error h (trimmed_trim text)).1 he
  · rw [h2] at hc; cases hc
  · rw [h2] at hc; cases hc
  · obtain ⟨c, r, h3⟩ := List.exists_cons_of_ne_nil h2
    exact ⟨c, r, h3, h1 c (by rw [h3]; rfl)⟩

/-- The text of the error, if there is one. -/
def errorText {α : Type} (r : Except NomError α) : Option Str :=
  match r with
  | .ok _ => none
  | .error e => some e.text

/-- Errors in each of the kinds of lines. In the first example `later` holds, then `firstRow` twice, `head`, `missing`, and `firstRow` for an NFA. -/
example : errorText (FaE.dfa c!"a b\n→ x x y\ny\n") = some c!"error Eof at: y\n" := by decide +kernel
example : errorText (FaE.dfa c!"a b\n→ x\ny x y\n") = some c!"error Space at: \ny x y\n" := by decide +kernel
example : errorText (FaE.dfa c!"a b # first\n → * * x\n") = some c!"error Verify at: * x\n" := by decide +kernel
example : errorText (FaE.dfa c!"a ε\nx x x\n") = some c!"error CrLf at: ε\nx x x\n" := by decide +kernel
example : errorText (FaE.dfa c!"# nothing") = some c!"error TakeTill1 at: " := by decide +kernel
example : errorText (FaE.nfa c!"a ε\nx {y z\n") = some c!"error Tag at: \n" := by decide +kernel
example : errorText (RegexE.regex cl1 c!" (a|b)*c) ") = some c!"error Eof at: )" := by decide +kernel
example : errorText (RegexE.regex cl1 c!"(a|b") = some c!"error Verify at: (a|b" := by decide +kernel
example : errorText (RegexE.regex cl1 c!" ") = some c!"error Fail at: " := by decide +kernel

/-- **C81** If the code is `Eof`, what is before the place is a table. -/
theorem C81_eof (t : Str) (e : NomError) (h : FaE.dfa t = .error e) (hc : e.code = .eof) :
    ∃ before hd sts, t = before ++ e.input ∧ DfaText ⟨hd, sts⟩ before := by
  cases C81_dfa t e h with
  | head k y _ _ _ _ _ hx => rw [hc] at hx; exact hx.elim
  | firstRow k hh l k' y hd _ _ _ _ _ _ _ _ hx => rw [hc] at hx; exact hx.elim
  | missing k l _ _ _ _ _ hx => rw [hc] at hx; exact hx.elim
  | later before hd sts h1 _ _ h2 _ _ => exact ⟨before, hd, sts, h1, h2⟩

/-! ## Instances of the theorems of this file -/

example := C81_dfa_error_iff c!"a b\n→ n n"
example := C81_dfa c!"a b\n→ n }" _ rfl
example := C81_nfa_error_iff c!"a b\n→ n n"
example := C81_nfa c!"a b\n→ n }" _ rfl
example := C81_regex cl1 cl1_seg c!" a|b\n" c!"a|b" ⟨[' '], ['\n'], rfl, by decide, by decide, by decide, by decide⟩ ⟨[], .verify⟩
example := C81_eof c!"a\n→ n n\n}" _ rfl rfl

end Dandy
