import Verif.Spec.Escape
import Verif.Props.Compose
import Verif.Props.Unicode
/-! # C124: texts written as expressions -/

namespace Dandy
open Samples RegexParser RegexTree

private theorem seq_escape {cl : Str → Nat} : ∀ (gs : List Str), gs ≠ [] → (∀ g ∈ gs, g ≠ [] ∧ cl g = g.length ∧ Ends cl '\\' g ∧ Ends cl ')' g) →
    ∀ r, ∃ hs, SeqL cl (gs.flatMap ('\\' :: ·) ++ ')' :: r) (')' :: r) {gs} hs
  | [], h, _, _ => absurd rfl h
  | [g], _, h, r => by
    obtain ⟨h1, h2, _, h4⟩ := h g List.mem_cons_self
    have hc : cl (g ++ ')' :: r) = g.length := by rw [h4 g (List.suffix_refl g) h1 r, h2]
    have := AtomL.escaped (cl := cl) (s := g ++ ')' :: r) (by simp)
    rw [hc, List.drop_left, List.take_left] at this
    exact ⟨_, by simpa using SeqL.one (.atom this)⟩
  | g :: g' :: gs, _, h, r => by
    obtain ⟨h1, h2, h3, _⟩ := h g List.mem_cons_self
    obtain ⟨hs, ih⟩ := seq_escape (g' :: gs) (by simp) (fun x hx => h x (List.mem_cons_of_mem _ hx)) r
    obtain ⟨v, hv⟩ : ∃ v, (g' :: gs).flatMap ('\\' :: ·) ++ ')' :: r = '\\' :: v := ⟨_, by rw [List.flatMap_cons, List.cons_append, List.cons_append]⟩
    rw [hv] at ih
    have hc : cl (g ++ '\\' :: v) = g.length := by rw [h3 g (List.suffix_refl g) h1 v, h2]
    have := AtomL.escaped (cl := cl) (s := g ++ '\\' :: v) (by simp)
    rw [hc, List.drop_left, List.take_left] at this
    have h5 := SeqL.cons (.atom this) ih
    rw [show ({[g]} : Language Str) * {g' :: gs} = {g :: g' :: gs} from by
        ext x
        simp only [Language.mem_mul]
        constructor
        · rintro ⟨_, rfl, _, rfl, rfl⟩; rfl
        · rintro rfl; exact ⟨_, rfl, _, rfl, rfl⟩] at h5
    refine ⟨[g] ++ hs, ?_⟩
    rw [List.flatMap_cons, List.append_assoc, hv]
    exact h5

private theorem atom_escape {cl : Str → Nat} (gs : List Str) (h : ∀ g ∈ gs, g ≠ [] ∧ cl g = g.length ∧ Ends cl '\\' g ∧ Ends cl ')' g) (r : Str) :
    ∃ hs, AtomL cl (escape gs ++ r) r {gs} hs := by
  cases gs with
  | nil => exact ⟨_, .epsilon⟩
  | cons g gs =>
    obtain ⟨hs, h1⟩ := seq_escape (g :: gs) (by simp) h r
    refine ⟨hs, ?_⟩
    have := AtomL.par (.one h1)
    simpa [escape] using this

private def listLang (ws : List (List Str)) : Language Str := {w | w ∈ ws}

private theorem expr_dictionary {cl : Str → Nat} : ∀ (ws : List (List Str)), (∀ w ∈ ws, ∀ g ∈ w, g ≠ [] ∧ cl g = g.length ∧ Ends cl '\\' g ∧ Ends cl ')' g) →
    ∃ hs, ExprL cl (dictionary ws) [] (listLang ws) hs
  | [], _ => by
    have : listLang [] = 0 := by
      ext w
      change w ∈ [] ↔ w ∈ (0 : Language Str)
      simp [Language.notMem_zero]
    rw [this]
    exact ⟨[], .one (.one (.atom .empty))⟩
  | [w], h => by
    obtain ⟨hs, h1⟩ := atom_escape w (h w List.mem_cons_self) []
    refine ⟨hs, ?_⟩
    rw [List.append_nil] at h1
    have : listLang [w] = {w} := by
      ext x
      change x ∈ [w] ↔ x = w
      simp
    rw [this]
    exact .one (.one (.atom h1))
  | w :: v :: ws, h => by
    obtain ⟨hs, h1⟩ := atom_escape w (h w List.mem_cons_self) ('|' :: dictionary (v :: ws))
    obtain ⟨ks, h2⟩ := expr_dictionary (v :: ws) (fun x hx => h x (List.mem_cons_of_mem _ hx))
    refine ⟨hs ++ ks, ?_⟩
    have := ExprL.alt (.one (.atom h1)) h2
    rw [show ({w} : Language Str) + listLang (v :: ws) = listLang (w :: v :: ws) from by
      ext x
      rw [Language.mem_add]
      change x = w ∨ x ∈ v :: ws ↔ x ∈ w :: v :: ws
      rw [List.mem_cons (a := x) (b := w)]] at this
    exact this

private theorem escape_ends (w : List Str) : (∃ c ∈ (escape w).head?, c = '(' ∨ c = 'ε') ∧ ∃ c ∈ (escape w).getLast?, c = ')' ∨ c = 'ε' := by
  cases w with
  | nil => simp [escape]
  | cons g gs =>
    refine ⟨⟨'(', by simp [escape], .inl rfl⟩, ⟨')', ?_, .inl rfl⟩⟩
    rw [escape, List.getLast?_concat]
    rfl

private theorem dictionary_ends : ∀ ws : List (List Str),
    (∃ c ∈ (dictionary ws).head?, c = '(' ∨ c = 'ε' ∨ c = '∅') ∧ ∃ c ∈ (dictionary ws).getLast?, c = ')' ∨ c = 'ε' ∨ c = '∅'
  | [] => by simp [dictionary]
  | [w] => by
    obtain ⟨⟨a, a1, a2⟩, b, b1, b2⟩ := escape_ends w
    exact ⟨⟨a, a1, by tauto⟩, b, b1, by tauto⟩
  | w :: v :: ws => by
    obtain ⟨⟨a, a1, a2⟩, _⟩ := escape_ends w
    obtain ⟨_, b, b1, b2⟩ := dictionary_ends (v :: ws)
    have h1 : escape w ≠ [] := by intro h0; rw [h0] at a1; cases a1
    have h2 : dictionary (v :: ws) ≠ [] := by intro h0; rw [h0] at b1; cases b1
    refine ⟨⟨a, ?_, by tauto⟩, b, ?_, b2⟩
    · rw [dictionary, List.head?_append_of_ne_nil _ h1]; exact a1
    · rw [dictionary, List.getLast?_append_of_ne_nil _ (by simp), List.getLast?_cons_of_ne_nil h2]; exact b1

private theorem dictionary_trimmed (ws : List (List Str)) : Trimmed (dictionary ws) (dictionary ws) := by
  obtain ⟨⟨a, a1, a2⟩, b, b1, b2⟩ := dictionary_ends ws
  refine ⟨[], [], by simp, by simp, by simp, fun c hc => ?_, fun c hc => ?_⟩
  · rw [Option.mem_def] at a1 hc
    rw [a1] at hc; cases hc
    rcases a2 with rfl | rfl | rfl <;> decide
  · rw [Option.mem_def] at b1 hc
    rw [b1] at hc; cases hc
    rcases b2 with rfl | rfl | rfl <;> decide

/-- **C124** Every finite list of words can be written as an expression that matches exactly these words: with a backslash before every cluster, in
parentheses, with bars between the words. -/
theorem C124_dictionary (cl : Str → Nat) (h : Segmentation cl) (ws : List (List Str))
    (hw : ∀ w ∈ ws, ∀ g ∈ w, g ≠ [] ∧ cl g = g.length ∧ Ends cl '\\' g ∧ Ends cl ')' g) :
    ∃ e, regex cl (dictionary ws) = some e ∧ ∀ w, (toNfa e).accepts w = true ↔ w ∈ ws := by
  obtain ⟨hs, h1⟩ := expr_dictionary ws hw
  obtain ⟨e, he⟩ := (C36_accepts_iff cl h _ _ (dictionary_trimmed ws)).2 ⟨_, _, h1⟩
  exact ⟨e, he, fun w => (C36_to_nfa cl h _ _ (dictionary_trimmed ws) e he _ _ h1).1 w⟩

example : dictionary [[s 'a', s '*'], [], [s '+']] = c!"(\\a\\*)|ε|(\\+)" ∧
    ((regex cl1 (dictionary [[s 'a', s '*'], [], [s '+']])).map fun e => (toNfa e).accepts [s 'a', s '*']) = some true ∧
    Segmentation cl1 ∧ ∀ g ∈ [s 'a', s '*', s '+'], Ends cl1 '\\' g := by
  refine ⟨by decide, by decide +kernel, cl1_seg, fun g _ t _ hne r => ?_⟩
  cases t with
  | nil => exact absurd rfl hne
  | cons c t => simp [cl1]

/-- **C124** With the segmentation of Unicode: whatever texts are given, as long as none of their clusters ends with a character that has the property
Prepend, exactly these texts are accepted. -/
theorem C124_texts (P : Unicode.Table) (hP : P.Consistent) (hA : P.Ascii) (ts : List Str)
    (ht : ∀ t ∈ ts, ∀ g ∈ Unicode.graphemes P t, ∀ c ∈ g.getLast?, P.gcb c ≠ .prepend) :
    ∃ e, regex (Unicode.firstCluster P) (dictionary (ts.map (Unicode.graphemes P))) = some e ∧
      ∀ t, (toNfa e).acceptsGraphemes (Unicode.graphemes P) t = true ↔ t ∈ ts := by
  obtain ⟨k1, k2, k3⟩ := C94_assumptions P hP
  obtain ⟨e, e1, e2⟩ := C124_dictionary (Unicode.firstCluster P) k2 (ts.map (Unicode.graphemes P)) (by
    intro w hw g hg
    rw [List.mem_map] at hw
    obtain ⟨t, ht', rfl⟩ := hw
    have hne : g ≠ [] := fun h0 => k1.nonempty t (h0 ▸ hg)
    refine ⟨hne, ?_, C115_unicode P hA _ (by decide) g (ht t ht' g hg), C115_unicode P hA _ (by decide) g (ht t ht' g hg)⟩
    rw [Unicode.firstCluster, k1.single t g hg]
    rfl)
  refine ⟨e, e1, fun t => ?_⟩
  rw [Nfa.acceptsGraphemes]
  change (toNfa e).accepts (Unicode.graphemes P t) = true ↔ _
  rw [e2, List.mem_map]
  constructor
  · rintro ⟨u, hu, he⟩
    rw [← k1.flatten t, ← he, k1.flatten u]
    exact hu
  · exact fun h => ⟨t, h, rfl⟩

/-- An expression for the texts `a*`, the empty one, `é ` (with a combining accent and a space) and a family. -/
example : sampleTable.Consistent ∧ sampleTable.Ascii ∧ dictionary ([c!"a*", c!"", c!"é ", c!"👨‍👧"].map (Unicode.graphemes sampleTable)) =
      c!"(\\a\\*)|ε|(\\é\\ )|(\\👨‍👧)" ∧
    (∀ t ∈ [c!"a*", c!"", c!"é ", c!"👨‍👧"], ∀ g ∈ Unicode.graphemes sampleTable t, ∀ c ∈ g.getLast?, sampleTable.gcb c ≠ .prepend) :=
  ⟨sampleTable_consistent, sampleTable_ascii, by decide +kernel, by decide +kernel⟩

/-- **C124 does not hold without the parentheses** White space at the end is cut off even after a backslash: `a\ ` is no expression, and neither is a
backslash and a space; at the beginning it can be escaped, and in parentheses it can be at the end. -/
theorem C124_blank_false : regex cl1 c!"a\\ " = none ∧ regex cl1 c!"\\ " = none ∧
    (regex cl1 c!"\\ a").map (fun e => (toNfa e).accepts [s ' ', s 'a']) = some true ∧
    (regex cl1 c!"(a\\ )").map (fun e => (toNfa e).accepts [s 'a', s ' ']) = some true := by
  refine ⟨?_, ?_, by decide +kernel, by decide +kernel⟩
  · have : (regex cl1 c!"a\\ ").isNone = true := by decide +kernel
    exact Option.isNone_iff_eq_none.1 this
  · have : (regex cl1 c!"\\ ").isNone = true := by decide +kernel
    exact Option.isNone_iff_eq_none.1 this

/-- **C124 does not hold without the condition on Prepend** U+0600 ties to the parenthesis after it. -/
theorem C124_prepend_false : Unicode.graphemes sampleTable c!"\u0600" = [c!"\u0600"] ∧
    regex (Unicode.firstCluster sampleTable) (dictionary [[c!"\u0600"]]) = none := by
  refine ⟨by decide +kernel, ?_⟩
  have : (regex (Unicode.firstCluster sampleTable) (dictionary [[c!"\u0600"]])).isNone = true := by decide +kernel
  exact Option.isNone_iff_eq_none.1 this

end Dandy
