import Verif.Model.Clap
import Verif.Spec.Clap
import Mathlib.Data.Nat.Digits.Lemmas
import Mathlib.Data.List.Nodup
/-!
# The parser of command lines reads exactly the command lines of the grammar
-/

namespace Dandy
namespace ClapProofs

open Cli Cli.Clap CommandLine

/-! ## Tables of options -/

/-- A table of options and its flags and options with values. -/
structure Declares (ds : List Opt) (flags valued : List Named) : Prop where
  flags_mem : ∀ d ∈ flags, (⟨d.long, d.short, false⟩ : Opt) ∈ ds
  valued_mem : ∀ d ∈ valued, (⟨d.long, d.short, true⟩ : Opt) ∈ ds
  mem : ∀ d ∈ ds, (⟨d.long, d.short⟩ : Named) ∈ if d.value then valued else flags
  long_unique : ∀ d ∈ ds, ∀ e ∈ ds, d.long = e.long → d = e
  short_unique : ∀ d ∈ ds, ∀ e ∈ ds, d.short ≠ none → d.short = e.short → d = e
  long_ne : ∀ d ∈ ds, d.long ≠ []
  long_eq : ∀ d ∈ ds, '=' ∉ d.long
  short_dash : ∀ d ∈ ds, d.short ≠ some '-'

theorem top_declares : Declares topOpts [⟨c!"less-logs", none⟩] [⟨c!"out", some 'o'⟩] := by
  constructor <;> decide +kernel

theorem enumerateRegex_declares : Declares enumerateRegexOpts [] [⟨c!"amount", some 'n'⟩] := by
  constructor <;> decide +kernel

theorem enumerateFile_declares : Declares enumerateFileOpts [] [⟨c!"type", none⟩, ⟨c!"amount", some 'a'⟩] := by
  constructor <;> decide +kernel

theorem testFile_declares : Declares testFileOpts [] [⟨c!"type", none⟩, ⟨c!"test-type", some 't'⟩] := by
  constructor <;> decide +kernel

theorem equivalence_declares : Declares equivalenceOpts [⟨c!"minimized", some 'm'⟩, ⟨c!"bool", some 'b'⟩]
    [⟨c!"in-type", some 'i'⟩, ⟨c!"type", some 't'⟩, ⟨c!"path-length", some 'p'⟩] := by
  constructor <;> decide +kernel

theorem binary_declares : Declares binaryOpts [⟨c!"minimized", some 'm'⟩]
    [⟨c!"type", some 't'⟩, ⟨c!"second-type", some 's'⟩, ⟨c!"compared-type", none⟩, ⟨c!"enumerate", some 'e'⟩] := by
  constructor <;> decide +kernel

variable {ds : List Opt} {flags valued : List Named}

theorem find_long (hd : Declares ds flags valued) {d : Opt} (h : d ∈ ds) : ds.find? (fun e => e.long = d.long) = some d := by
  cases hf : ds.find? (fun e => e.long = d.long) with
  | none =>
    have := List.find?_eq_none.1 hf d h
    simp at this
  | some e =>
    have h1 := List.mem_of_find?_eq_some hf
    have h2 := List.find?_some hf
    rw [hd.long_unique e h1 d h (by simpa using h2)]

theorem find_short (hd : Declares ds flags valued) {d : Opt} (h : d ∈ ds) {c : Char} (hc : d.short = some c) :
    ds.find? (fun e => e.short = some c) = some d := by
  cases hf : ds.find? (fun e => e.short = some c) with
  | none => exact absurd hc (by simpa using List.find?_eq_none.1 hf d h)
  | some e =>
    have h1 := List.mem_of_find?_eq_some hf
    have h2 : e.short = some c := by simpa using List.find?_some hf
    rw [hd.short_unique e h1 d h (by rw [h2]; simp) (by rw [h2, hc])]

theorem isOption_iff (w : Str) : isOption w = true ↔ Dashed w := by
  unfold isOption Dashed
  constructor
  · intro h
    split at h
    · exact ⟨_, by simp, rfl⟩
    · cases h
  · rintro ⟨r, h1, rfl⟩
    cases r with
    | nil => exact absurd rfl h1
    | cons _ _ => rfl

theorem isOption_false (w : Str) : isOption w = false ↔ ¬ Dashed w := by
  rw [← isOption_iff]; simp

/-! ## Splitting at `=` -/

theorem splitEq_none {n : Str} (h : '=' ∉ n) : splitEq n = (n, none) := by
  induction n with
  | nil => rfl
  | cons c cs ih =>
    simp only [List.mem_cons, not_or] at h
    unfold splitEq
    rw [if_neg (fun h' => h.1 h'.symm), ih h.2]

theorem splitEq_some {n : Str} (h : '=' ∉ n) (v : Str) : splitEq (n ++ '=' :: v) = (n, some v) := by
  induction n with
  | nil => rfl
  | cons c cs ih =>
    simp only [List.mem_cons, not_or] at h
    rw [List.cons_append]
    unfold splitEq
    rw [if_neg (fun h' => h.1 h'.symm), ih h.2]

theorem splitEq_join (b : Str) :
    (splitEq b).2 = none ∧ b = (splitEq b).1 ∨ ∃ v, (splitEq b).2 = some v ∧ b = (splitEq b).1 ++ '=' :: v := by
  induction b with
  | nil => exact .inl ⟨rfl, rfl⟩
  | cons c cs ih =>
    unfold splitEq
    by_cases hc : c = '='
    · rw [if_pos hc, hc]; exact .inr ⟨cs, rfl, rfl⟩
    · rw [if_neg hc]
      rcases ih with ⟨h1, h2⟩ | ⟨v, h1, h2⟩
      · exact .inl ⟨h1, by dsimp only; rw [← h2]⟩
      · exact .inr ⟨v, h1, by dsimp only; rw [List.cons_append, ← h2]⟩

/-! ## One word -/

/-- The words an option written as in the grammar consists of, by the first word. -/
def First (flags valued : List Named) (w : Str) (os : List (Str × Str)) (p : Option Str) : Prop :=
  match p with
  | none => Item flags valued [w] os
  | some name => ∀ v, ¬ Dashed v → Item flags valued [w, v] (os ++ [(name, v)])

theorem readLong_sound (hd : Declares ds flags valued) {b : Str} {os : List (Str × Str)} {p : Option Str}
    (h : readLong ds b = some (os, p)) : First flags valued ('-' :: '-' :: b) os p := by
  unfold readLong at h
  cases hf : ds.find? (fun d => d.long = (splitEq b).1) with
  | none => rw [hf] at h; cases h
  | some d =>
    rw [hf] at h
    dsimp only at h
    have h1 := List.mem_of_find?_eq_some hf
    have h2 : d.long = (splitEq b).1 := by simpa using List.find?_some hf
    have h3 := hd.mem d h1
    rcases splitEq_join b with ⟨e1, e2⟩ | ⟨v, e1, e2⟩
    · rw [e1] at h
      rw [← h2] at e2
      cases hv : d.value with
      | true =>
        rw [hv] at h h3
        rw [if_pos rfl] at h
        cases h
        intro v hv'
        rw [e2]
        exact Item.long ⟨d.long, d.short⟩ v h3 hv'
      | false =>
        rw [hv] at h h3
        rw [if_neg (by simp)] at h
        cases h
        change Item _ _ _ _
        rw [e2]
        exact Item.flag ⟨d.long, d.short⟩ h3
    · rw [e1] at h
      rw [← h2] at e2
      cases hv : d.value with
      | true =>
        rw [hv] at h h3
        rw [if_pos rfl] at h
        cases h
        change Item _ _ _ _
        rw [e2]
        have := Item.longEq (flags := flags) (valued := valued) ⟨d.long, d.short⟩ v h3
        simpa using this
      | false =>
        rw [hv] at h
        rw [if_neg (by simp)] at h
        cases h

theorem readShort_sound (hd : Declares ds flags valued) {cs : Str} {os : List (Str × Str)} {p : Option Str}
    (h : readShort ds cs = some (os, p)) :
    p = none ∧ Letters flags cs os ∨
      (∃ pre c os', ∃ d ∈ valued, d.short = some c ∧ Letters flags pre os' ∧
        (cs = pre ++ [c] ∧ p = some d.long ∧ os = os' ∨
          ∃ v, p = none ∧ os = os' ++ [(d.long, v)] ∧ (cs = pre ++ c :: '=' :: v ∨ cs = pre ++ c :: v ∧ v ≠ [] ∧ v.head? ≠ some '='))) := by
  induction cs generalizing os p with
  | nil => cases h; exact .inl ⟨rfl, List.Forall₂.nil⟩
  | cons c cs ih =>
    unfold readShort at h
    cases hf : ds.find? (fun d => d.short = some c) with
    | none => rw [hf] at h; cases h
    | some d =>
      rw [hf] at h
      dsimp only at h
      have h1 := List.mem_of_find?_eq_some hf
      have h2 : d.short = some c := by simpa using List.find?_some hf
      have h3 := hd.mem d h1
      cases hv : d.value with
      | true =>
        rw [hv] at h h3
        rw [if_pos rfl] at h
        right
        refine ⟨[], c, [], ⟨d.long, d.short⟩, h3, h2, List.Forall₂.nil, ?_⟩
        split at h
        · cases h; exact .inl ⟨rfl, rfl, rfl⟩
        · cases h; exact .inr ⟨_, rfl, rfl, .inl rfl⟩
        · cases h
          rename_i n1 n2
          refine .inr ⟨cs, rfl, rfl, .inr ⟨rfl, n1, ?_⟩⟩
          intro hh
          cases cs with
          | nil => cases hh
          | cons x xs =>
            cases hh
            exact n2 xs rfl
      | false =>
        rw [hv] at h h3
        rw [if_neg (by simp)] at h
        rw [if_neg (by simp)] at h3
        cases hr : readShort ds cs with
        | none => rw [hr] at h; cases h
        | some r =>
          obtain ⟨ro, rp⟩ := r
          rw [hr] at h
          cases h
          rcases ih hr with ⟨e1, e2⟩ | ⟨pre, c', os', d', g1, g2, g3, g4⟩
          · exact .inl ⟨e1, List.Forall₂.cons ⟨⟨d.long, d.short⟩, h3, h2, rfl⟩ e2⟩
          · refine .inr ⟨c :: pre, c', (d.long, []) :: os', d', g1, g2, List.Forall₂.cons ⟨⟨d.long, d.short⟩, h3, h2, rfl⟩ g3, ?_⟩
            rcases g4 with ⟨k1, k2, k3⟩ | ⟨v, k1, k2, k3⟩
            · exact .inl ⟨by rw [k1]; rfl, k2, by rw [k3]⟩
            · refine .inr ⟨v, k1, by rw [k2]; rfl, ?_⟩
              rcases k3 with k3 | ⟨k3, k4, k5⟩
              · exact .inl (by rw [k3]; rfl)
              · exact .inr ⟨by rw [k3]; rfl, k4, k5⟩

theorem readOption_sound (hd : Declares ds flags valued) {w : Str} {os : List (Str × Str)} {p : Option Str} (hw : isOption w = true)
    (h : readOption ds w = some (os, p)) : First flags valued w os p := by
  unfold readOption at h
  split at h
  · exact readLong_sound hd h
  · rename_i cs hn
    have hne : cs ≠ [] := by
      rintro rfl
      cases hw
    rcases readShort_sound hd h with ⟨e1, e2⟩ | ⟨pre, c, os', d, g1, g2, g3, g4⟩
    · rw [e1]
      exact Item.letters cs os hne e2
    · rcases g4 with ⟨k1, k2, k3⟩ | ⟨v, k1, k2, k3⟩
      · rw [k2, k3, k1]
        exact fun v hv => Item.letterNext pre os' d c v g3 g1 g2 hv
      · rw [k1, k2]
        rcases k3 with k3 | ⟨k3, k4, k5⟩
        · rw [k3]
          exact Item.letterEq pre os' d c v g3 g1 g2
        · rw [k3]
          exact Item.letterValue pre os' d c v g3 g1 g2 k4 k5
  · cases h

theorem readShort_letters (hd : Declares ds flags valued) {cs : Str} {os : List (Str × Str)} (h : Letters flags cs os) (rest : Str) :
    readShort ds (cs ++ rest) = (readShort ds rest).map (fun r => (os ++ r.1, r.2)) := by
  induction h with
  | nil => cases hr : readShort ds rest <;> simp [hr]
  | @cons c o cs os hc hs ih =>
    obtain ⟨d, h1, h2, rfl⟩ := hc
    rw [List.cons_append, readShort, find_short hd (hd.flags_mem d h1) h2]
    dsimp only
    rw [if_neg (by simp), ih]
    cases hr : readShort ds rest <;> rfl

theorem readOption_letters (hd : Declares ds flags valued) {cs : Str} {os : List (Str × Str)} (h : Letters flags cs os) (c : Char) (rest : Str)
    (hc : ∃ d ∈ ds, d.short = some c) :
    readOption ds ('-' :: (cs ++ c :: rest)) = readShort ds (cs ++ c :: rest) := by
  cases h with
  | nil =>
    rw [List.nil_append]
    unfold readOption
    split
    · rename_i h'
      cases h'
      obtain ⟨d, h1, h2⟩ := hc
      exact absurd h2 (hd.short_dash d h1)
    · rename_i h'
      cases h'
      rfl
    · rename_i h' h''
      exact absurd rfl (h'' _)
  | @cons c' o cs' os' hc' hs =>
    obtain ⟨d, h1, h2, _⟩ := hc'
    have h3 := hd.short_dash _ (hd.flags_mem d h1)
    rw [List.cons_append]
    unfold readOption
    split
    · rename_i h'
      cases h'
      exact absurd h2 h3
    · rename_i h'
      cases h'
      rfl
    · rename_i h' h''
      exact absurd rfl (h'' _)

/-- What is read from the words of an item. -/
theorem item_read (hd : Declares ds flags valued) {w : List Str} {o : List (Str × Str)} (h : Item flags valued w o) :
    (∃ x, w = [x] ∧ isOption x = true ∧ x ≠ ['-', '-'] ∧ readOption ds x = some (o, none)) ∨
    (∃ x v os name, w = [x, v] ∧ isOption x = true ∧ x ≠ ['-', '-'] ∧ ¬ Dashed v ∧ o = os ++ [(name, v)] ∧
      readOption ds x = some (os, some name)) := by
  have long_word : ∀ d ∈ ds, ∀ r : Str, isOption (c!"--" ++ d.long ++ r) = true ∧ c!"--" ++ d.long ++ r ≠ ['-', '-'] := by
    intro d hm r
    have := hd.long_ne d hm
    cases hl : d.long with
    | nil => exact absurd hl this
    | cons x xs => exact ⟨rfl, by simp⟩
  have short_word : ∀ (cs : Str) (os : List (Str × Str)) (c : Char) (rest : Str), Letters flags cs os → (∃ d ∈ ds, d.short = some c) →
      isOption ('-' :: (cs ++ c :: rest)) = true ∧ '-' :: (cs ++ c :: rest) ≠ ['-', '-'] := by
    intro cs os c rest hl hc
    cases hl with
    | nil =>
      refine ⟨rfl, ?_⟩
      intro h
      cases h
      obtain ⟨d, h1, h2⟩ := hc
      exact hd.short_dash d h1 h2
    | cons _ _ => exact ⟨rfl, by simp⟩
  cases h with
  | flag d hm =>
    have h1 := hd.flags_mem d hm
    have h2 := long_word _ h1 []
    rw [List.append_nil] at h2
    refine .inl ⟨_, rfl, h2.1, h2.2, ?_⟩
    change readLong ds d.long = _
    unfold readLong
    rw [splitEq_none (hd.long_eq _ h1), find_long hd h1]
    rfl
  | long d v hm hv =>
    have h1 := hd.valued_mem d hm
    have h2 := long_word _ h1 []
    rw [List.append_nil] at h2
    refine .inr ⟨_, v, [], d.long, rfl, h2.1, h2.2, hv, rfl, ?_⟩
    change readLong ds d.long = _
    unfold readLong
    rw [splitEq_none (hd.long_eq _ h1), find_long hd h1]
    rfl
  | longEq d v hm =>
    have h1 := hd.valued_mem d hm
    have h2 := long_word _ h1 ('=' :: v)
    rw [List.append_assoc (c!"--" ++ d.long)]
    refine .inl ⟨_, rfl, h2.1, h2.2, ?_⟩
    change readLong ds (d.long ++ '=' :: v) = _
    unfold readLong
    rw [splitEq_some (hd.long_eq _ h1), find_long hd h1]
    rfl
  | letters cs os hne hl =>
    cases hl with
    | nil => exact absurd rfl hne
    | @cons c o cs' os' hc hs =>
      obtain ⟨d, h1, h2, rfl⟩ := hc
      have hm := hd.flags_mem d h1
      have hw := short_word [] [] c cs' List.Forall₂.nil ⟨_, hm, h2⟩
      refine .inl ⟨_, rfl, hw.1, hw.2, ?_⟩
      have hr := readOption_letters hd (List.Forall₂.nil : Letters flags [] []) c cs' ⟨_, hm, h2⟩
      rw [List.nil_append] at hr
      rw [hr]
      have hl' : Letters flags (c :: cs') ((d.long, []) :: os') := List.Forall₂.cons ⟨d, h1, h2, rfl⟩ hs
      have := readShort_letters hd hl' []
      rw [List.append_nil] at this
      rw [this]
      simp [readShort]
  | letterNext cs os d c v hl hm hc hv =>
    have h1 := hd.valued_mem d hm
    have hw := short_word cs os c [] hl ⟨_, h1, hc⟩
    refine .inr ⟨_, v, os, d.long, rfl, hw.1, hw.2, hv, rfl, ?_⟩
    rw [readOption_letters hd hl c [] ⟨_, h1, hc⟩, readShort_letters hd hl]
    unfold readShort
    rw [find_short hd h1 hc]
    simp
  | letterValue cs os d c v hl hm hc hv1 hv2 =>
    have h1 := hd.valued_mem d hm
    have hw := short_word cs os c v hl ⟨_, h1, hc⟩
    refine .inl ⟨_, rfl, hw.1, hw.2, ?_⟩
    rw [readOption_letters hd hl c v ⟨_, h1, hc⟩, readShort_letters hd hl]
    unfold readShort
    rw [find_short hd h1 hc]
    dsimp only
    rw [if_pos rfl]
    split
    · exact absurd rfl hv1
    · exact absurd rfl hv2
    · rfl
  | letterEq cs os d c v hl hm hc =>
    have h1 := hd.valued_mem d hm
    have hw := short_word cs os c ('=' :: v) hl ⟨_, h1, hc⟩
    refine .inl ⟨_, rfl, hw.1, hw.2, ?_⟩
    rw [readOption_letters hd hl c ('=' :: v) ⟨_, h1, hc⟩, readShort_letters hd hl]
    unfold readShort
    rw [find_short hd h1 hc]
    simp

/-! ## All words -/

theorem scan_item (hd : Declares ds flags valued) {w : List Str} {o : List (Str × Str)} (h : Item flags valued w o) (ws : List Str) :
    scan ds none (w ++ ws) = (scan ds none ws).map (fun r => (o ++ r.1, r.2)) := by
  rcases item_read hd h with ⟨x, rfl, h1, h2, h3⟩ | ⟨x, v, os, name, rfl, h1, h2, h3, rfl, h4⟩
  · rw [List.cons_append, List.nil_append, scan]
    rw [if_neg h2, if_pos h1, h3]
    rfl
  · rw [List.cons_append, List.cons_append, List.nil_append, scan]
    rw [if_neg h2, if_pos h1, h4, Option.bind_some]
    rw [scan]
    dsimp only
    rw [if_neg (by rw [(isOption_false v).2 h3]; simp)]
    cases scan ds none ws <;> simp

theorem scanTop_item (hd : Declares ds flags valued) {w : List Str} {o : List (Str × Str)} (h : Item flags valued w o) (ws : List Str) :
    scanTop ds none (w ++ ws) = (scanTop ds none ws).map (fun r => (o ++ r.1, r.2)) := by
  rcases item_read hd h with ⟨x, rfl, h1, h2, h3⟩ | ⟨x, v, os, name, rfl, h1, h2, h3, rfl, h4⟩
  · rw [List.cons_append, List.nil_append, scanTop]
    rw [if_neg h2, if_pos h1, h3]
    rfl
  · rw [List.cons_append, List.cons_append, List.nil_append, scanTop]
    rw [if_neg h2, if_pos h1, h4, Option.bind_some]
    rw [scanTop]
    dsimp only
    rw [if_neg (by rw [(isOption_false v).2 h3]; simp)]
    cases scanTop ds none ws <;> simp

theorem scan_complete (hd : Declares ds flags valued) {ws : List Str} {os : List (Str × Str)} {ps : List Str}
    (h : Written flags valued ws os ps) : scan ds none ws = some (os, ps) := by
  induction h with
  | nil => rfl
  | rest ws => rfl
  | argument w ws os ps hw _ ih =>
    rw [scan]
    rw [if_neg, if_neg (by rw [(isOption_false w).2 hw]; simp), ih]
    · rfl
    · rintro rfl
      exact hw ⟨['-'], by simp, rfl⟩
  | option w o ws os ps hi _ ih =>
    rw [scan_item hd hi, ih]
    rfl

theorem scan_sound (hd : Declares ds flags valued) (n : Nat) : ∀ {ws : List Str} {os : List (Str × Str)} {ps : List Str}, ws.length ≤ n →
    scan ds none ws = some (os, ps) → Written flags valued ws os ps := by
  induction n with
  | zero =>
    intro ws os ps hl h
    cases ws with
    | nil => cases h; exact Written.nil
    | cons _ _ => simp at hl
  | succ n ih =>
    intro ws os ps hl h
    cases ws with
    | nil => cases h; exact Written.nil
    | cons w ws =>
      rw [List.length_cons] at hl
      rw [scan] at h
      split at h
      · rename_i hw
        cases h
        rw [hw]
        exact Written.rest _
      · split at h
        · rename_i hw
          cases hr : readOption ds w with
          | none => rw [hr] at h; cases h
          | some r =>
            obtain ⟨o, p⟩ := r
            rw [hr, Option.bind_some] at h
            dsimp only at h
            have hf := readOption_sound hd hw hr
            cases p with
            | none =>
              cases hs : scan ds none ws with
              | none => rw [hs] at h; cases h
              | some r =>
                obtain ⟨ro, rp⟩ := r
                rw [hs] at h
                cases h
                exact Written.option [w] o ws ro rp hf (ih (by omega) hs)
            | some name =>
              cases ws with
              | nil => cases h
              | cons v ws =>
                rw [List.length_cons] at hl
                rw [scan] at h
                split at h
                · cases h
                · rename_i hv
                  have hv' : ¬ Dashed v := by rw [← isOption_iff]; exact hv
                  cases hs : scan ds none ws with
                  | none => rw [hs] at h; cases h
                  | some r =>
                    obtain ⟨ro, rp⟩ := r
                    rw [hs] at h
                    cases h
                    have := Written.option [w, v] (o ++ [(name, v)]) ws ro rp (hf v hv') (ih (by omega) hs)
                    simpa using this
        · rename_i hw
          cases hs : scan ds none ws with
          | none => rw [hs] at h; cases h
          | some r =>
            obtain ⟨ro, rp⟩ := r
            rw [hs] at h
            cases h
            exact Written.argument w ws ro rp (by rw [← isOption_iff]; exact hw) (ih (by omega) hs)

theorem scan_iff (hd : Declares ds flags valued) {ws : List Str} {os : List (Str × Str)} {ps : List Str} :
    scan ds none ws = some (os, ps) ↔ Written flags valued ws os ps :=
  ⟨scan_sound hd ws.length (le_refl _), scan_complete hd⟩

theorem scanTop_complete (hd : Declares ds flags valued) {top : List Str} {os : List (Str × Str)} (h : Options flags valued top os)
    {name : Str} (hn : ¬ Dashed name) (rest : List Str) : scanTop ds none (top ++ name :: rest) = some (os, name, rest) := by
  induction h with
  | nil =>
    rw [List.nil_append, scanTop]
    rw [if_neg, if_neg (by rw [(isOption_false name).2 hn]; simp)]
    rintro rfl
    exact hn ⟨['-'], by simp, rfl⟩
  | cons w o ws os hi _ ih =>
    rw [List.append_assoc, scanTop_item hd hi, ih]
    rfl

theorem scanTop_sound (hd : Declares ds flags valued) (n : Nat) : ∀ {ws : List Str} {os : List (Str × Str)} {name : Str} {rest : List Str},
    ws.length ≤ n → scanTop ds none ws = some (os, name, rest) →
    ∃ top, ws = top ++ name :: rest ∧ Options flags valued top os ∧ ¬ Dashed name := by
  induction n with
  | zero =>
    intro ws os name rest hl h
    cases ws with
    | nil => cases h
    | cons _ _ => simp at hl
  | succ n ih =>
    intro ws os name rest hl h
    cases ws with
    | nil => cases h
    | cons w ws =>
      rw [List.length_cons] at hl
      rw [scanTop] at h
      split at h
      · cases h
      · split at h
        · rename_i hw
          cases hr : readOption ds w with
          | none => rw [hr] at h; cases h
          | some r =>
            obtain ⟨o, p⟩ := r
            rw [hr, Option.bind_some] at h
            dsimp only at h
            have hf := readOption_sound hd hw hr
            cases p with
            | none =>
              cases hs : scanTop ds none ws with
              | none => rw [hs] at h; cases h
              | some r =>
                obtain ⟨ro, rn, rr⟩ := r
                rw [hs] at h
                cases h
                obtain ⟨top, e1, e2, e3⟩ := ih (by omega) hs
                exact ⟨w :: top, by rw [e1]; rfl, Options.cons [w] o top ro hf e2, e3⟩
            | some nm =>
              cases ws with
              | nil => cases h
              | cons v ws =>
                rw [List.length_cons] at hl
                rw [scanTop] at h
                split at h
                · cases h
                · rename_i hv
                  have hv' : ¬ Dashed v := by rw [← isOption_iff]; exact hv
                  cases hs : scanTop ds none ws with
                  | none => rw [hs] at h; cases h
                  | some r =>
                    obtain ⟨ro, rn, rr⟩ := r
                    rw [hs] at h
                    cases h
                    obtain ⟨top, e1, e2, e3⟩ := ih (by omega) hs
                    have := Options.cons [w, v] (o ++ [(nm, v)]) top ro (hf v hv') e2
                    exact ⟨w :: v :: top, by rw [e1]; rfl, by simpa using this, e3⟩
        · rename_i hw
          cases h
          exact ⟨[], rfl, Options.nil, by rw [← isOption_iff]; exact hw⟩

/-! ## Values -/

theorem parseType_iff (v : Str) (t : AutomataType) : parseType v = some t ↔ TypeText v t := by
  unfold parseType
  constructor
  · intro h
    split at h
    · cases h; assumption
    · split at h
      · cases h; assumption
      · split at h
        · cases h; assumption
        · cases h
  · cases t <;> (intro h; cases h; rfl)

theorem parseTestType_iff (v : Str) (t : TestType) : parseTestType v = some t ↔ TestTypeText v t := by
  unfold parseTestType
  constructor
  · intro h
    split at h
    · cases h; assumption
    · split at h
      · cases h; assumption
      · cases h
  · cases t <;> (intro h; cases h; rfl)

theorem parsePath_iff (v p : Str) : parsePath v = some p ↔ PathText v p := by
  unfold parsePath PathText
  constructor
  · intro h
    split at h
    · cases h
    · cases h
      exact ⟨rfl, by assumption⟩
  · rintro ⟨rfl, h⟩
    rw [if_neg h]

theorem parsePaths_iff (vs ps : List Str) : vs.mapM parsePath = some ps ↔ vs = ps ∧ ∀ p ∈ ps, p ≠ [] := by
  induction vs generalizing ps with
  | nil =>
    rw [List.mapM_nil]
    constructor
    · intro h; cases h; exact ⟨rfl, by simp⟩
    · rintro ⟨rfl, _⟩; rfl
  | cons v vs ih =>
    rw [List.mapM_cons]
    constructor
    · intro h
      cases h1 : parsePath v with
      | none => rw [h1] at h; cases h
      | some p =>
        rw [h1] at h
        cases h2 : vs.mapM parsePath with
        | none => rw [h2] at h; cases h
        | some ps' =>
          rw [h2] at h
          cases h
          obtain ⟨e1, e2⟩ := (ih ps').1 h2
          obtain ⟨f1, f2⟩ := (parsePath_iff v p).1 h1
          rw [e1, f1]
          refine ⟨rfl, ?_⟩
          intro q hq
          rcases List.mem_cons.1 hq with rfl | hq
          · exact f2
          · exact e2 q hq
    · rintro ⟨rfl, h⟩
      rw [(parsePath_iff v v).2 ⟨rfl, h v (by simp)⟩, (ih vs).2 ⟨rfl, fun p hp => h p (by simp [hp])⟩]
      rfl

theorem digit_char {d : Nat} (h : d < 10) : (Char.ofNat (48 + d)).isDigit = true ∧ (Char.ofNat (48 + d)).toNat = 48 + d ∧
    Char.ofNat (48 + d) ≠ '+' := by
  interval_cases d <;> decide

theorem char_digit {c : Char} (h : c.isDigit = true) : c.toNat - 48 < 10 ∧ c = Char.ofNat (48 + (c.toNat - 48)) := by
  unfold Char.isDigit at h
  simp only [ge_iff_le, Bool.and_eq_true, decide_eq_true_eq] at h
  have h1 : 48 ≤ c.toNat := UInt32.le_iff_toNat_le.1 h.1
  have h2 : c.toNat ≤ 57 := UInt32.le_iff_toNat_le.1 h.2
  refine ⟨by omega, ?_⟩
  rw [show 48 + (c.toNat - 48) = c.toNat by omega, Char.ofNat_toNat]

theorem fold_digits (ds : List Nat) (hd : ∀ d ∈ ds, d < 10) :
    (ds.reverse.map (fun d => Char.ofNat (48 + d))).foldl (fun n c => 10 * n + (c.toNat - 48)) 0 = Nat.ofDigits 10 ds := by
  induction ds with
  | nil => rfl
  | cons d ds ih =>
    rw [List.reverse_cons, List.map_append, List.foldl_append, ih (fun x hx => hd x (by simp [hx])), Nat.ofDigits_cons]
    simp only [List.map_cons, List.map_nil, List.foldl_cons, List.foldl_nil]
    rw [(digit_char (hd d (by simp))).2.1]
    omega

theorem digits_text {v : Str} (h : v.all Char.isDigit = true) :
    ∃ ds : List Nat, (∀ d ∈ ds, d < 10) ∧ v = ds.reverse.map (fun d => Char.ofNat (48 + d)) := by
  refine ⟨(v.map (fun c => c.toNat - 48)).reverse, ?_, ?_⟩
  · intro d hd
    simp only [List.mem_reverse, List.mem_map] at hd
    obtain ⟨c, hc, rfl⟩ := hd
    exact (char_digit (List.all_eq_true.1 h c hc)).1
  · rw [List.reverse_reverse, List.map_map]
    symm
    rw [List.map_congr_left (g := id), List.map_id]
    intro c hc
    exact (char_digit (List.all_eq_true.1 h c hc)).2.symm

theorem parseUsize_iff (v : Str) (n : Nat) : parseUsize v = some n ↔ NumberText v n := by
  unfold parseUsize NumberText
  constructor
  · intro h
    dsimp only at h
    generalize ht : (if v.head? = some '+' then v.tail else v) = t at h
    split at h
    · rename_i hc
      obtain ⟨h1, h2, h3⟩ := hc
      obtain ⟨ds, d1, d2⟩ := digits_text h2
      rw [d2, fold_digits ds d1] at h h3
      cases h
      refine ⟨ds, ?_, d1, rfl, h3, ?_⟩
      · rintro rfl
        exact h1 d2
      · rw [← d2, ← ht]
        split
        · rename_i hp
          right
          cases v with
          | nil => cases hp
          | cons c cs => cases hp; rfl
        · exact .inl rfl
    · cases h
  · rintro ⟨ds, h1, h2, h3, h4, h5⟩
    have key : (if v.head? = some '+' then v.tail else v) = ds.reverse.map (fun d => Char.ofNat (48 + d)) := by
      rcases h5 with h5 | h5
      · rw [if_neg, h5]
        rw [h5]
        intro hh
        have : '+' ∈ ds.reverse.map (fun d => Char.ofNat (48 + d)) := List.mem_of_head? hh
        simp only [List.mem_map, List.mem_reverse] at this
        obtain ⟨d, e1, e2⟩ := this
        exact (digit_char (h2 d e1)).2.2 e2
      · rw [if_pos (by rw [h5]; rfl), h5]; rfl
    dsimp only
    rw [key, fold_digits ds h2, h3, if_pos]
    refine ⟨?_, ?_, h4⟩
    · intro hh
      simp at hh
      exact h1 hh
    · rw [List.all_eq_true]
      intro c hc
      simp only [List.mem_map, List.mem_reverse] at hc
      obtain ⟨d, e1, rfl⟩ := hc
      exact (digit_char (h2 d e1)).1

/-! ## Fields -/

theorem lookup_iff {os : List (Str × Str)} (h : Once os) (name v : Str) : os.lookup name = some v ↔ (name, v) ∈ os := by
  induction os with
  | nil => simp
  | cons o os ih =>
    obtain ⟨n, x⟩ := o
    have hn : n ∉ os.map Prod.fst ∧ Once os := by
      unfold Once at h
      rw [List.map_cons, List.nodup_cons] at h
      exact h
    rw [List.lookup_cons]
    by_cases he : name = n
    · subst he
      rw [beq_self_eq_true]
      dsimp only
      constructor
      · intro hv; cases hv; simp
      · intro hv
        rcases List.mem_cons.1 hv with hv | hv
        · cases hv; rfl
        · exact absurd (List.mem_map_of_mem (f := Prod.fst) hv) hn.1
    · rw [beq_eq_false_iff_ne.2 he]
      dsimp only
      rw [ih hn.2]
      simp [he]

theorem lookup_none {os : List (Str × Str)} (h : Once os) (name : Str) : os.lookup name = none ↔ ∀ v, (name, v) ∉ os := by
  constructor
  · intro hn v hv
    rw [(lookup_iff h name v).2 hv] at hn
    cases hn
  · intro hv
    cases hl : os.lookup name with
    | none => rfl
    | some v => exact absurd ((lookup_iff h name v).1 hl) (hv v)

theorem noRepetition_iff (os : List (Str × Str)) : noRepetition os = some () ↔ Once os := by
  unfold noRepetition Once
  split
  · rename_i h
    exact ⟨fun _ => h, fun _ => rfl⟩
  · rename_i h
    exact ⟨fun h' => (nomatch h'), fun h' => absurd h' h⟩

variable {α : Type} {pa : Str → Option α} {text : Str → α → Prop}

theorem optionalValue_iff (hp : ∀ v x, pa v = some x ↔ text v x) {os : List (Str × Str)} (h : Once os) (name : Str) (x : Option α) :
    optionalValue os name pa = some x ↔ Value os name text x := by
  unfold optionalValue Value
  cases hl : os.lookup name with
  | none =>
    have := (lookup_none h name).1 hl
    dsimp only
    cases x with
    | none => exact ⟨fun _ => this, fun _ => rfl⟩
    | some y =>
      constructor
      · intro h'; cases h'
      · rintro ⟨v, hv, _⟩; exact absurd hv (this v)
  | some v =>
    have hm := (lookup_iff h name v).1 hl
    dsimp only
    cases x with
    | none =>
      constructor
      · intro h'; cases hv : pa v <;> rw [hv] at h' <;> cases h'
      · intro h'; exact absurd hm (h' v)
    | some y =>
      constructor
      · intro h'
        cases hv : pa v with
        | none => rw [hv] at h'; cases h'
        | some z => rw [hv] at h'; cases h'; exact ⟨v, hm, (hp v y).1 hv⟩
      · rintro ⟨v', h1, h2⟩
        rw [(lookup_iff h name v').2 h1] at hl
        cases hl
        rw [(hp v y).2 h2]
        rfl

theorem withDefault_iff (hp : ∀ v x, pa v = some x ↔ text v x) {os : List (Str × Str)} (h : Once os) (name : Str) (d x : α) :
    withDefault os name pa d = some x ↔ ValueOr os name text d x := by
  have h1 := optionalValue_iff hp h name (some x)
  have h2 := optionalValue_iff hp h name none
  unfold ValueOr
  rw [← h1, ← h2]
  unfold withDefault optionalValue
  cases os.lookup name with
  | none => simp [eq_comm]
  | some v => simp

theorem flag_iff {os : List (Str × Str)} (h : Once os) (name : Str) (b : Bool) : flag os name = b ↔ FlagGiven os name b := by
  unfold flag FlagGiven
  cases hl : os.lookup name with
  | none =>
    have := (lookup_none h name).1 hl
    cases b <;> simp [this]
  | some v =>
    have := (lookup_iff h name v).1 hl
    cases b with
    | true => simp; exact ⟨v, this⟩
    | false => simp; exact ⟨v, this⟩

/-! ## Commands -/

theorem bind_iff {β γ : Type} {x : Option β} {f : β → Option γ} {z : γ} : (x >>= f) = some z ↔ ∃ y, x = some y ∧ f y = some z :=
  Option.bind_eq_some_iff

theorem equivalenceArgs_iff (ws : List Str) (a : EquivalenceArgs) : equivalenceArgs ws = some a ↔ EquivalenceLine ws a := by
  unfold equivalenceArgs EquivalenceLine
  constructor
  · intro h
    obtain ⟨⟨os, ps⟩, h1, h⟩ := bind_iff.1 h
    obtain ⟨⟨⟩, h2, h⟩ := bind_iff.1 h
    have ho := (noRepetition_iff os).1 h2
    obtain ⟨it, h3, h⟩ := bind_iff.1 h
    obtain ⟨ty, h4, h⟩ := bind_iff.1 h
    obtain ⟨pl, h5, h⟩ := bind_iff.1 h
    cases ps with
    | nil => cases h
    | cons p ps =>
      obtain ⟨au, h6, h⟩ := bind_iff.1 h
      obtain ⟨fs, h7, h⟩ := bind_iff.1 h
      cases h
      obtain ⟨e1, e2⟩ := (parsePath_iff p au).1 h6
      obtain ⟨f1, f2⟩ := (parsePaths_iff ps fs).1 h7
      subst e1 f1
      refine ⟨os, (scan_iff equivalence_declares).1 h1, ho, (optionalValue_iff parseType_iff ho _ _).1 h3,
        (withDefault_iff parseType_iff ho _ _ _).1 h4, (flag_iff ho _ _).1 rfl, (flag_iff ho _ _).1 rfl,
        (optionalValue_iff parseUsize_iff ho _ _).1 h5, ?_⟩
      intro q hq
      rcases List.mem_cons.1 hq with rfl | hq
      · exact e2
      · exact f2 q hq
  · rintro ⟨os, h1, ho, h3, h4, h5, h6, h7, h8⟩
    refine bind_iff.2 ⟨_, (scan_iff equivalence_declares).2 h1, bind_iff.2 ⟨_, (noRepetition_iff os).2 ho, bind_iff.2 ⟨_,
      (optionalValue_iff parseType_iff ho _ _).2 h3, bind_iff.2 ⟨_, (withDefault_iff parseType_iff ho _ _ _).2 h4, bind_iff.2 ⟨_,
      (optionalValue_iff parseUsize_iff ho _ _).2 h7, bind_iff.2 ⟨_, (parsePath_iff _ _).2 ⟨rfl, h8 _ (by simp)⟩, bind_iff.2 ⟨_,
      (parsePaths_iff _ _).2 ⟨rfl, fun p hp => h8 p (by simp [hp])⟩, ?_⟩⟩⟩⟩⟩⟩⟩
    rw [(flag_iff ho _ _).2 h5, (flag_iff ho _ _).2 h6]
    rfl

theorem binaryArgs_iff (ws : List Str) (a : BinaryOpArgs) : binaryArgs ws = some a ↔ BinaryLine ws a := by
  unfold binaryArgs BinaryLine
  constructor
  · intro h
    obtain ⟨⟨os, ps⟩, h1, h⟩ := bind_iff.1 h
    obtain ⟨⟨⟩, h2, h⟩ := bind_iff.1 h
    have ho := (noRepetition_iff os).1 h2
    obtain ⟨ty, h3, h⟩ := bind_iff.1 h
    obtain ⟨st, h4, h⟩ := bind_iff.1 h
    obtain ⟨ct, h5, h⟩ := bind_iff.1 h
    obtain ⟨en, h6, h⟩ := bind_iff.1 h
    have key : ps = a.first :: a.second :: a.compareAgainst.toList ∧ (∀ p ∈ ps, p ≠ []) ∧
        a = ⟨ty, st, ct, flag os c!"minimized", en, a.first, a.second, a.compareAgainst⟩ := by
      split at h
      · obtain ⟨p1, g1, h⟩ := bind_iff.1 h
        obtain ⟨p2, g2, h⟩ := bind_iff.1 h
        cases h
        obtain ⟨e1, e2⟩ := (parsePath_iff _ _).1 g1
        obtain ⟨f1, f2⟩ := (parsePath_iff _ _).1 g2
        subst e1 f1
        refine ⟨rfl, ?_, rfl⟩
        simp [e2, f2]
      · obtain ⟨p1, g1, h⟩ := bind_iff.1 h
        obtain ⟨p2, g2, h⟩ := bind_iff.1 h
        obtain ⟨p3, g3, h⟩ := bind_iff.1 h
        cases h
        obtain ⟨e1, e2⟩ := (parsePath_iff _ _).1 g1
        obtain ⟨f1, f2⟩ := (parsePath_iff _ _).1 g2
        obtain ⟨k1, k2⟩ := (parsePath_iff _ _).1 g3
        subst e1 f1 k1
        refine ⟨rfl, ?_, rfl⟩
        simp [e2, f2, k2]
      · cases h
    obtain ⟨k1, k2, k3⟩ := key
    rw [k1] at h1 k2
    refine ⟨os, (scan_iff binary_declares).1 h1, ho, ?_, ?_, ?_, ?_, ?_, k2⟩
    · rw [k3]; exact (withDefault_iff parseType_iff ho _ _ _).1 h3
    · rw [k3]; exact (optionalValue_iff parseType_iff ho _ _).1 h4
    · rw [k3]; exact (withDefault_iff parseType_iff ho _ _ _).1 h5
    · rw [k3]; exact (flag_iff ho _ _).1 rfl
    · rw [k3]; exact (optionalValue_iff parseUsize_iff ho _ _).1 h6
  · rintro ⟨os, h1, ho, h3, h4, h5, h6, h7, h8⟩
    refine bind_iff.2 ⟨_, (scan_iff binary_declares).2 h1, bind_iff.2 ⟨_, (noRepetition_iff os).2 ho, bind_iff.2 ⟨_,
      (withDefault_iff parseType_iff ho _ _ _).2 h3, bind_iff.2 ⟨_, (optionalValue_iff parseType_iff ho _ _).2 h4, bind_iff.2 ⟨_,
      (withDefault_iff parseType_iff ho _ _ _).2 h5, bind_iff.2 ⟨_, (optionalValue_iff parseUsize_iff ho _ _).2 h7, ?_⟩⟩⟩⟩⟩⟩
    rw [(flag_iff ho _ _).2 h6]
    obtain ⟨ty, st, ct, mi, en, p1, p2, p3⟩ := a
    have g1 := (parsePath_iff p1 p1).2 ⟨rfl, h8 p1 (by simp)⟩
    have g2 := (parsePath_iff p2 p2).2 ⟨rfl, h8 p2 (by simp)⟩
    cases p3 with
    | none => exact bind_iff.2 ⟨_, g1, bind_iff.2 ⟨_, g2, rfl⟩⟩
    | some p3 =>
      have g3 := (parsePath_iff p3 p3).2 ⟨rfl, h8 p3 (by simp)⟩
      exact bind_iff.2 ⟨_, g1, bind_iff.2 ⟨_, g2, bind_iff.2 ⟨_, g3, rfl⟩⟩⟩

theorem enumerateRegexArgs_iff (ws : List Str) (a : EnumerateRegexArgs) : enumerateRegexArgs ws = some a ↔ EnumerateRegexLine ws a := by
  unfold enumerateRegexArgs EnumerateRegexLine
  constructor
  · intro h
    obtain ⟨⟨os, ps⟩, h1, h⟩ := bind_iff.1 h
    obtain ⟨⟨⟩, h2, h⟩ := bind_iff.1 h
    have ho := (noRepetition_iff os).1 h2
    obtain ⟨am, h3, h⟩ := bind_iff.1 h
    split at h
    · cases h
      exact ⟨os, (scan_iff enumerateRegex_declares).1 h1, ho, (withDefault_iff parseUsize_iff ho _ _ _).1 h3⟩
    · cases h
  · rintro ⟨os, h1, ho, h3⟩
    exact bind_iff.2 ⟨_, (scan_iff enumerateRegex_declares).2 h1, bind_iff.2 ⟨_, (noRepetition_iff os).2 ho, bind_iff.2 ⟨_,
      (withDefault_iff parseUsize_iff ho _ _ _).2 h3, rfl⟩⟩⟩

theorem enumerateFileArgs_iff (ws : List Str) (a : EnumerateFileArgs) : enumerateFileArgs ws = some a ↔ EnumerateFileLine ws a := by
  unfold enumerateFileArgs EnumerateFileLine
  constructor
  · intro h
    obtain ⟨⟨os, ps⟩, h1, h⟩ := bind_iff.1 h
    obtain ⟨⟨⟩, h2, h⟩ := bind_iff.1 h
    have ho := (noRepetition_iff os).1 h2
    obtain ⟨ty, h3, h⟩ := bind_iff.1 h
    obtain ⟨am, h4, h⟩ := bind_iff.1 h
    split at h
    · obtain ⟨p, g1, h⟩ := bind_iff.1 h
      cases h
      obtain ⟨e1, e2⟩ := (parsePath_iff _ _).1 g1
      subst e1
      exact ⟨os, (scan_iff enumerateFile_declares).1 h1, ho, (withDefault_iff parseType_iff ho _ _ _).1 h3,
        (withDefault_iff parseUsize_iff ho _ _ _).1 h4, e2⟩
    · cases h
  · rintro ⟨os, h1, ho, h3, h4, h5⟩
    exact bind_iff.2 ⟨_, (scan_iff enumerateFile_declares).2 h1, bind_iff.2 ⟨_, (noRepetition_iff os).2 ho, bind_iff.2 ⟨_,
      (withDefault_iff parseType_iff ho _ _ _).2 h3, bind_iff.2 ⟨_, (withDefault_iff parseUsize_iff ho _ _ _).2 h4,
      bind_iff.2 ⟨_, (parsePath_iff _ _).2 ⟨rfl, h5⟩, rfl⟩⟩⟩⟩⟩

theorem testFileArgs_iff (ws : List Str) (a : TestFileArgs) : testFileArgs ws = some a ↔ TestFileLine ws a := by
  unfold testFileArgs TestFileLine
  constructor
  · intro h
    obtain ⟨⟨os, ps⟩, h1, h⟩ := bind_iff.1 h
    obtain ⟨⟨⟩, h2, h⟩ := bind_iff.1 h
    have ho := (noRepetition_iff os).1 h2
    obtain ⟨ty, h3, h⟩ := bind_iff.1 h
    obtain ⟨tt, h4, h⟩ := bind_iff.1 h
    cases ps with
    | nil => cases h
    | cons p ps =>
      obtain ⟨au, h6, h⟩ := bind_iff.1 h
      obtain ⟨fs, h7, h⟩ := bind_iff.1 h
      cases h
      obtain ⟨e1, e2⟩ := (parsePath_iff p au).1 h6
      obtain ⟨f1, f2⟩ := (parsePaths_iff ps fs).1 h7
      subst e1 f1
      refine ⟨os, (scan_iff testFile_declares).1 h1, ho, (withDefault_iff parseType_iff ho _ _ _).1 h3,
        (withDefault_iff parseTestType_iff ho _ _ _).1 h4, ?_⟩
      intro q hq
      rcases List.mem_cons.1 hq with rfl | hq
      · exact e2
      · exact f2 q hq
  · rintro ⟨os, h1, ho, h3, h4, h8⟩
    exact bind_iff.2 ⟨_, (scan_iff testFile_declares).2 h1, bind_iff.2 ⟨_, (noRepetition_iff os).2 ho, bind_iff.2 ⟨_,
      (withDefault_iff parseType_iff ho _ _ _).2 h3, bind_iff.2 ⟨_, (withDefault_iff parseTestType_iff ho _ _ _).2 h4, bind_iff.2 ⟨_,
      (parsePath_iff _ _).2 ⟨rfl, h8 _ (by simp)⟩, bind_iff.2 ⟨_, (parsePaths_iff _ _).2 ⟨rfl, fun p hp => h8 p (by simp [hp])⟩, rfl⟩⟩⟩⟩⟩⟩

theorem map_iff {β γ : Type} {x : Option β} {f : β → γ} {z : γ} : x.map f = some z ↔ ∃ y, x = some y ∧ f y = z :=
  Option.map_eq_some_iff

theorem command_iff (name : Str) (ws : List Str) (op : Operation) : command name ws = some op ↔ CommandWords name ws op := by
  unfold command
  constructor
  · intro h
    split at h
    · obtain ⟨a, h1, rfl⟩ := map_iff.1 h
      exact ⟨by assumption, (equivalenceArgs_iff ws a).1 h1⟩
    split at h
    · obtain ⟨a, h1, rfl⟩ := map_iff.1 h
      exact ⟨by assumption, (binaryArgs_iff ws a).1 h1⟩
    split at h
    · obtain ⟨a, h1, rfl⟩ := map_iff.1 h
      exact ⟨by assumption, (binaryArgs_iff ws a).1 h1⟩
    split at h
    · obtain ⟨a, h1, rfl⟩ := map_iff.1 h
      exact ⟨by assumption, (binaryArgs_iff ws a).1 h1⟩
    split at h
    · obtain ⟨a, h1, rfl⟩ := map_iff.1 h
      exact ⟨by assumption, (binaryArgs_iff ws a).1 h1⟩
    split at h
    · obtain ⟨a, h1, rfl⟩ := map_iff.1 h
      exact ⟨by assumption, (enumerateRegexArgs_iff ws a).1 h1⟩
    split at h
    · obtain ⟨a, h1, rfl⟩ := map_iff.1 h
      exact ⟨by assumption, (enumerateFileArgs_iff ws a).1 h1⟩
    split at h
    · obtain ⟨a, h1, rfl⟩ := map_iff.1 h
      exact ⟨by assumption, (testFileArgs_iff ws a).1 h1⟩
    · cases h
  · intro h
    cases op with
    | equivalence a =>
      obtain ⟨rfl, h⟩ := h
      rw [if_pos rfl, (equivalenceArgs_iff ws a).2 h]; rfl
    | union a =>
      obtain ⟨rfl, h⟩ := h
      rw [if_neg (by decide), if_pos rfl, (binaryArgs_iff ws a).2 h]; rfl
    | intersection a =>
      obtain ⟨rfl, h⟩ := h
      rw [if_neg (by decide), if_neg (by decide), if_pos rfl, (binaryArgs_iff ws a).2 h]; rfl
    | difference a =>
      obtain ⟨rfl, h⟩ := h
      rw [if_neg (by decide), if_neg (by decide), if_neg (by decide), if_pos rfl, (binaryArgs_iff ws a).2 h]; rfl
    | symmetricDifference a =>
      obtain ⟨rfl, h⟩ := h
      rw [if_neg (by decide), if_neg (by decide), if_neg (by decide), if_neg (by decide), if_pos rfl, (binaryArgs_iff ws a).2 h]; rfl
    | enumerateRegex a =>
      obtain ⟨rfl, h⟩ := h
      rw [if_neg (by decide), if_neg (by decide), if_neg (by decide), if_neg (by decide), if_neg (by decide), if_pos rfl,
        (enumerateRegexArgs_iff ws a).2 h]; rfl
    | enumerateFile a =>
      obtain ⟨rfl, h⟩ := h
      rw [if_neg (by decide), if_neg (by decide), if_neg (by decide), if_neg (by decide), if_neg (by decide), if_neg (by decide), if_pos rfl,
        (enumerateFileArgs_iff ws a).2 h]; rfl
    | testFile a =>
      obtain ⟨rfl, h⟩ := h
      rw [if_neg (by decide), if_neg (by decide), if_neg (by decide), if_neg (by decide), if_neg (by decide), if_neg (by decide),
        if_neg (by decide), if_pos rfl, (testFileArgs_iff ws a).2 h]; rfl

/-- The names of the commands do not begin with a dash. -/
theorem command_name {name : Str} {ws : List Str} {op : Operation} (h : CommandWords name ws op) : ¬ Dashed name := by
  rw [← isOption_iff]
  cases op <;> (obtain ⟨rfl, _⟩ := h; decide)

theorem parse_iff (ws : List Str) (args : Args) : Clap.parse ws = some args ↔ ProgramLine ws args := by
  unfold Clap.parse ProgramLine
  constructor
  · intro h
    obtain ⟨⟨os, name, rest⟩, h1, h⟩ := bind_iff.1 h
    obtain ⟨⟨⟩, h2, h⟩ := bind_iff.1 h
    have ho := (noRepetition_iff os).1 h2
    obtain ⟨out, h3, h⟩ := bind_iff.1 h
    obtain ⟨op, h4, h⟩ := bind_iff.1 h
    cases h
    obtain ⟨top, e1, e2, e3⟩ := scanTop_sound top_declares _ (le_refl _) h1
    exact ⟨top, os, name, rest, e1, e2, ho, (optionalValue_iff parsePath_iff ho _ _).1 h3, (flag_iff ho _ _).1 rfl, (command_iff name rest op).1 h4⟩
  · rintro ⟨top, os, name, rest, rfl, h1, ho, h2, h3, h4⟩
    refine bind_iff.2 ⟨_, scanTop_complete top_declares h1 (command_name h4) rest, bind_iff.2 ⟨_, (noRepetition_iff os).2 ho,
      bind_iff.2 ⟨_, (optionalValue_iff parsePath_iff ho _ _).2 h2, bind_iff.2 ⟨_, (command_iff name rest _).2 h4, ?_⟩⟩⟩⟩
    rw [(flag_iff ho _ _).2 h3]
    rfl

end ClapProofs
end Dandy
