import Verif.Props.Cli
import Verif.Props.Tables
/-! # Lines of error messages -/

namespace Dandy
open TableText (Name DfaText NfaText)

/-- There is no end of a line in the text. -/
def NoBreak (t : Str) : Prop := '\n' ∉ t ∧ '\r' ∉ t

namespace NoBreak

theorem nil : NoBreak [] := by simp [NoBreak]

theorem append {t u : Str} : NoBreak (t ++ u) ↔ NoBreak t ∧ NoBreak u := by
  simp only [NoBreak, List.mem_append, not_or]
  tauto

theorem cons {c : Char} {t : Str} : NoBreak (c :: t) ↔ (c ≠ '\n' ∧ c ≠ '\r') ∧ NoBreak t := by
  simp only [NoBreak, List.mem_cons, not_or]
  constructor
  · rintro ⟨⟨h1, h2⟩, h3, h4⟩; exact ⟨⟨fun h => h1 h.symm, fun h => h3 h.symm⟩, h2, h4⟩
  · rintro ⟨⟨h1, h2⟩, h3, h4⟩; exact ⟨⟨fun h => h1 h.symm, h3⟩, fun h => h2 h.symm, h4⟩

theorem name {t : Str} (h : Name t) : NoBreak t :=
  ⟨fun hc => absurd (h.2.1 _ hc).1 (by decide), fun hc => absurd (h.2.1 _ hc).1 (by decide)⟩

theorem digit (d : Nat) : Nat.digitChar d ≠ '\n' ∧ Nat.digitChar d ≠ '\r' := by
  by_cases h : d < 16
  · have : ∀ d < 16, Nat.digitChar d ≠ '\n' ∧ Nat.digitChar d ≠ '\r' := by decide
    exact this d h
  · have : Nat.digitChar d = '*' := by
      unfold Nat.digitChar
      simp only [show d ≠ 0 by omega, show d ≠ 1 by omega, show d ≠ 2 by omega, show d ≠ 3 by omega,
        show d ≠ 4 by omega, show d ≠ 5 by omega, show d ≠ 6 by omega, show d ≠ 7 by omega, show d ≠ 8 by omega,
        show d ≠ 9 by omega, show d ≠ 10 by omega, show d ≠ 11 by omega, show d ≠ 12 by omega, show d ≠ 13 by omega,
        show d ≠ 14 by omega, show d ≠ 15 by omega, if_false]
    rw [this]; decide

theorem digitsCore (b fuel n : Nat) (acc : Str) (h : NoBreak acc) : NoBreak (Nat.toDigitsCore b fuel n acc) := by
  induction fuel generalizing n acc with
  | zero => exact h
  | succ k ih =>
    unfold Nat.toDigitsCore
    dsimp only
    split
    · exact cons.2 ⟨digit _, h⟩
    · exact ih _ _ (cons.2 ⟨digit _, h⟩)

theorem digits (b n : Nat) : NoBreak (Nat.toDigits b n) := digitsCore _ _ _ _ nil

theorem debugChar (plain : Char → Bool) (c : Char) : NoBreak (Dandy.debugChar plain c) := by
  unfold Dandy.debugChar
  split
  · unfold NoBreak; decide
  split
  · unfold NoBreak; decide
  split
  · unfold NoBreak; decide
  split
  · unfold NoBreak; decide
  split
  · unfold NoBreak; decide
  split
  · unfold NoBreak; decide
  split
  · rename_i h1 h2 h3 h4 h5 h6 h7
    exact cons.2 ⟨⟨h4, h3⟩, nil⟩
  · exact append.2 ⟨append.2 ⟨by unfold NoBreak; decide, digits _ _⟩, by unfold NoBreak; decide⟩

theorem debugStr (plain : Char → Bool) (s : Str) : NoBreak (Dandy.debugStr plain s) := by
  unfold Dandy.debugStr
  refine append.2 ⟨append.2 ⟨by unfold NoBreak; decide, ?_⟩, by unfold NoBreak; decide⟩
  induction s with
  | nil => exact nil
  | cons c s ih => rw [List.flatMap_cons]; exact append.2 ⟨debugChar plain c, ih⟩

theorem code (k : ErrorKind) : NoBreak k.text := by cases k <;> unfold NoBreak <;> decide

theorem debug (plain : Char → Bool) (e : NomError) : NoBreak (e.debug plain) := by
  unfold NomError.debug
  refine append.2 ⟨append.2 ⟨append.2 ⟨append.2 ⟨?_, debugStr plain _⟩, ?_⟩, code _⟩, ?_⟩ <;> unfold NoBreak <;> decide

/-- What a message about a table consists of. -/
theorem parseErrorText {e : ParseError}
    (h : match e with
      | .wrongNumberOfTransitions name _ _ => NoBreak name
      | .transitionDoesNotExist name target => NoBreak name ∧ NoBreak target
      | .duplicateAlphabetSymbol x => NoBreak x
      | .duplicateStateDefinition name => NoBreak name
      | _ => True) : NoBreak (Cli.parseErrorText e) := by
  cases e <;> dsimp only at h <;> unfold Cli.parseErrorText
  · exact append.2 ⟨append.2 ⟨append.2 ⟨append.2 ⟨append.2 ⟨by unfold NoBreak; decide, h⟩, by unfold NoBreak; decide⟩, digits _ _⟩,
      by unfold NoBreak; decide⟩, digits _ _⟩
  · exact append.2 ⟨append.2 ⟨append.2 ⟨append.2 ⟨by unfold NoBreak; decide, h.2⟩, by unfold NoBreak; decide⟩, h.1⟩,
      by unfold NoBreak; decide⟩
  · unfold NoBreak; decide
  · unfold NoBreak; decide
  · exact append.2 ⟨append.2 ⟨by unfold NoBreak; decide, h⟩, by unfold NoBreak; decide⟩
  · exact append.2 ⟨append.2 ⟨by unfold NoBreak; decide, h⟩, by unfold NoBreak; decide⟩

theorem dfa_defect {p : ParsedDfa} {text : Str} (h : DfaText p text) {e : ParseError} (he : p.HasDefect e) : NoBreak (Cli.parseErrorText e) := by
  obtain ⟨_, _, h3, h4⟩ := C43_dfa_names text p (C42_dfa_complete _ _ h)
  apply parseErrorText
  cases e with
  | wrongNumberOfTransitions n a b => obtain ⟨_, _, s, hs, rfl, _⟩ := he; exact name (h4 s hs).1
  | transitionDoesNotExist n t => obtain ⟨⟨s, hs, rfl, ht⟩, _⟩ := he; exact ⟨name (h4 s hs).1, name ((h4 s hs).2.2 t ht)⟩
  | missingInitialState => trivial
  | multipleInitialStates => trivial
  | duplicateAlphabetSymbol x => obtain ⟨i, j, _, h1, _⟩ := he; exact name (h3 x (List.mem_of_getElem? h1))
  | duplicateStateDefinition n => obtain ⟨i, j, s, t, _, h1, _, rfl, _⟩ := he; exact name (h4 s (List.mem_of_getElem? h1)).1

theorem nfa_defect {p : ParsedNfa} {text : Str} (h : NfaText p text) {e : ParseError} (he : p.HasDefect e) : NoBreak (Cli.parseErrorText e) := by
  obtain ⟨_, _, h3, h4⟩ := C43_nfa_names text p (C42_nfa_complete _ _ h)
  apply parseErrorText
  cases e with
  | wrongNumberOfTransitions n a b => obtain ⟨_, _, s, hs, rfl, _⟩ := he; exact name (h4 s hs).1
  | transitionDoesNotExist n t => obtain ⟨⟨s, hs, rfl, ts, h5, ht⟩, _⟩ := he; exact ⟨name (h4 s hs).1, name ((h4 s hs).2.2 ts h5 t ht)⟩
  | missingInitialState => trivial
  | multipleInitialStates => trivial
  | duplicateAlphabetSymbol x =>
    obtain ⟨i, j, _, ⟨h1, _⟩ | ⟨rfl, _⟩⟩ := he
    · exact name (h3 x (List.mem_of_getElem? h1))
    · unfold NoBreak; decide
  | duplicateStateDefinition n => obtain ⟨i, j, s, t, _, h1, _, rfl, _⟩ := he; exact name (h4 s (List.mem_of_getElem? h1)).1

end NoBreak

/-! ## Paths -/

namespace Cli
section
variable {P : Char → Prop}

theorem splitSlash_chars {t : Str} (h : ∀ c ∈ t, P c) : ∀ p ∈ splitSlash t, ∀ c ∈ p, P c := by
  induction t with
  | nil => simp [splitSlash]
  | cons a t ih =>
    have ih := ih (fun c hc => h c (List.mem_cons_of_mem _ hc))
    unfold splitSlash
    split
    · intro p hp
      rcases List.mem_cons.1 hp with rfl | hp
      · simp
      · exact ih p hp
    · cases hs : splitSlash t with
      | nil =>
        intro p hp c hc
        rw [List.mem_singleton.1 hp, List.mem_singleton] at hc
        exact hc ▸ h a List.mem_cons_self
      | cons q qs =>
        rw [hs] at ih
        intro p hp
        rcases List.mem_cons.1 hp with rfl | hp
        · intro c hc
          rcases List.mem_cons.1 hc with rfl | hc
          · exact h _ List.mem_cons_self
          · exact ih q List.mem_cons_self c hc
        · exact ih p (List.mem_cons_of_mem _ hp)

theorem pieces_chars (hd : P '.') {ps : List Str} (h : ∀ p ∈ ps, ∀ c ∈ p, P c) : ∀ x ∈ ps.filterMap piece, ∀ c ∈ x.str, P c := by
  intro x hx
  obtain ⟨p, hp, hx⟩ := List.mem_filterMap.1 hx
  unfold piece at hx
  split at hx
  · cases hx
  split at hx
  · cases hx
    intro c hc
    simp only [Comp.str, List.mem_cons, List.not_mem_nil, or_false, or_self] at hc
    exact hc ▸ hd
  · cases hx
    exact h p hp

theorem components_chars (hs : P '/') (hd : P '.') {t : Str} (h : ∀ c ∈ t, P c) : ∀ x ∈ components t, ∀ c ∈ x.str, P c := by
  have h1 := splitSlash_chars h
  have one : ∀ {a : Char} {c : Char}, P a → c ∈ [a] → P c := fun ha hc => List.mem_singleton.1 hc ▸ ha
  unfold components
  split
  · intro x hx
    rcases List.mem_cons.1 hx with rfl | hx
    · exact fun c hc => one hs hc
    · exact pieces_chars hd h1 x hx
  · split
    · rename_i ps he
      rw [he] at h1
      intro x hx
      rcases List.mem_cons.1 hx with rfl | hx
      · exact fun c hc => one hd hc
      · exact pieces_chars hd (fun p hp => h1 p (List.mem_cons_of_mem _ hp)) x hx
    · exact pieces_chars hd h1

theorem collectPath_chars (hs : P '/') {cs : List Comp} (h : ∀ x ∈ cs, ∀ c ∈ x.str, P c) : ∀ c ∈ collectPath cs, P c := by
  have key : ∀ (cs : List Comp) (buf : Str), (∀ x ∈ cs, ∀ c ∈ x.str, P c) → (∀ c ∈ buf, P c) →
      ∀ c ∈ cs.foldl (fun buf c => pathPush buf c.str) buf, P c := by
    intro cs
    induction cs with
    | nil => exact fun _ _ hb => hb
    | cons x cs ih =>
      intro buf hx hb
      refine ih _ (fun y hy => hx y (List.mem_cons_of_mem _ hy)) ?_
      have hx := hx x List.mem_cons_self
      change ∀ c ∈ pathPush buf x.str, P c
      unfold pathPush
      split
      · exact hx
      split
      · intro c hc
        rcases List.mem_append.1 hc with hc | hc
        · exact hb c hc
        · exact hx c hc
      · intro c hc
        rcases List.mem_append.1 hc with hc | hc
        · exact hb c hc
        · rcases List.mem_cons.1 hc with rfl | hc
          · exact hs
          · exact hx c hc
  exact key cs [] h (by simp)

/-- A shortened path has no other characters. -/
theorem lastN_chars (hs : P '/') (hd : P '.') {path : Str} (h : ∀ c ∈ path, P c) {n : Option Nat} {q : Str}
    (hq : lastNComponents path n = some q) : ∀ c ∈ q, P c := by
  unfold lastNComponents at hq
  cases n with
  | none => cases hq; exact h
  | some n =>
    dsimp only at hq
    split at hq
    · cases hq
      refine collectPath_chars hs (fun x hx => ?_)
      refine components_chars hs hd (collectPath_chars hs (fun y hy => ?_)) x (List.mem_reverse.1 hx)
      exact components_chars hs hd h y (List.mem_reverse.1 (List.mem_of_mem_take hy))
    · cases hq
end

/-- A verdict about a file that can be parsed, on a single line. -/
theorem verdict_line {env : Env} (hcl : Segmentation env.cl) {ref : Automata} {a : EquivalenceArgs} {path text : Str} {r : EquivalenceResult}
    (hr : env.read path = .ok text) (hp : Parses env.cl a.type text) (h : Verdict env ref a path r) : '\n' ∉ r.text := by
  unfold Verdict at h
  rw [hr] at h
  dsimp only at h
  cases hl : Automata.load env.cl text a.type with
  | ok sub =>
    rw [hl] at h
    rcases h with ⟨_, rfl⟩ | ⟨_, _, rfl⟩ | ⟨_, _, rfl⟩ <;> decide
  | error e =>
    rw [hl] at h
    subst h
    have he := C61_load_error env.cl hcl text a.type e hl
    have out : ∀ x : ParseError, NoBreak (parseErrorText x) → '\n' ∉ (EquivalenceResult.failedToValidate x).text := by
      intro x hx
      have : NoBreak (EquivalenceResult.failedToValidate x).text :=
        NoBreak.append.2 ⟨NoBreak.append.2 ⟨by unfold NoBreak; decide, hx⟩, by unfold NoBreak; decide⟩
      exact this.1
    cases e with
    | file p msg => exact he.elim
    | dfaParse x => obtain ⟨ht, hn, _⟩ := he; rw [ht] at hp; exact absurd hp hn
    | nfaParse x => obtain ⟨ht, hn, _⟩ := he; rw [ht] at hp; exact absurd hp hn
    | regexParse x =>
      obtain ⟨ht, hn⟩ := he
      rw [ht] at hp
      obtain ⟨core, L, gs, h1, h2⟩ := hp
      exact absurd ⟨L, gs, h2⟩ (hn core h1).1
    | dfaCompile x => obtain ⟨_, p, h1, h2⟩ := he; exact out x (NoBreak.dfa_defect h1 h2)
    | nfaCompile x => obtain ⟨_, p, h1, h2⟩ := he; exact out x (NoBreak.nfa_defect h1 h2)

/-- The reason why a text cannot be loaded, with the rest of the text in quotes, has no line ends. -/
theorem explains_noBreak {cl : Str → Nat} {text : Str} {ty : AutomataType} {e : LoadError} (he : e.Explains cl text ty) (plain : Char → Bool) :
    match e with
    | .file _ _ => False
    | .dfaParse x | .nfaParse x | .regexParse x => NoBreak (x.debug plain)
    | .dfaCompile x | .nfaCompile x => NoBreak (parseErrorText x) := by
  cases e with
  | file p msg => exact he
  | dfaParse x => exact NoBreak.debug plain x
  | nfaParse x => exact NoBreak.debug plain x
  | regexParse x => exact NoBreak.debug plain x
  | dfaCompile x => obtain ⟨_, p, h1, h2⟩ := he; exact NoBreak.dfa_defect h1 h2
  | nfaCompile x => obtain ⟨_, p, h1, h2⟩ := he; exact NoBreak.nfa_defect h1 h2

theorem showsVerdict_line {a : EquivalenceArgs} {path line : Str} {r : EquivalenceResult} (hp : '\n' ∉ path)
    (hr : a.bool = true ∨ '\n' ∉ r.text) (h : ShowsVerdict a path r line) : '\n' ∉ line := by
  obtain ⟨pre, text, rfl, h1, h2, h3⟩ := h
  rw [List.mem_append, not_or]
  constructor
  · rcases h1 with ⟨_, rfl⟩ | ⟨p, h1, rfl⟩
    · simp
    · have := lastN_chars (P := fun c => c ≠ '\n') (by decide) (by decide) (fun c hc he => hp (he ▸ hc)) h1
      rw [List.mem_append, not_or]
      exact ⟨fun hc => this _ hc rfl, by decide⟩
  · cases hb : a.bool with
    | true => rcases h2 hb with ⟨_, rfl⟩ | ⟨_, rfl⟩ <;> decide
    | false =>
      rw [h3 hb, ← verdictText_eq]
      exact hr.resolve_left (by rw [hb]; decide)

end Cli
end Dandy
