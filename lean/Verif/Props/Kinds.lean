import Verif.Props.Reader
import Verif.Props.Cli
import Verif.Props.RegexParser
/-! # C123: files of the wrong kind -/

namespace Dandy
open Samples RegexParser RegexTree Cli Cli.Automata

private theorem row_kinds (ws : List Str) {x : Bool × Bool × Str × List Str} {y : Bool × Bool × Str × List (List Str)}
    (h1 : Reader.row Reader.name ws = some x) (h2 : Reader.row Reader.set ws = some y) : False := by
  unfold Reader.row at h1 h2
  generalize Reader.mark [['-', '>'], ['→']] ws = m at h1 h2
  obtain ⟨i, ws1⟩ := m
  dsimp only at h1 h2
  generalize Reader.mark [['*']] ws1 = m at h1 h2
  obtain ⟨a, ws2⟩ := m
  dsimp only at h1 h2
  match ws2, h1, h2 with
  | n :: e :: es, h1, h2 =>
    simp only [Option.bind_eq_bind, Option.bind_eq_some_iff, List.mapM_cons] at h1 h2
    obtain ⟨_, _, _, ⟨u, hu, _⟩, _⟩ := h1
    obtain ⟨_, _, _, ⟨v, hv, _⟩, _⟩ := h2
    unfold Reader.name at hu
    split at hu
    · rename_i hn
      unfold Reader.set at hv
      split at hv
      · exact (hn.2.1 '{' List.mem_cons_self).2.2.1 rfl
      · cases hv
    · cases hu

private theorem whole_first {α σ : Type} {f : Str → Option α} {g : List Str → Option σ} {t : Str} {x : List α × List σ}
    (h : Reader.whole f g t = some x) : ∃ hd r rs, Reader.table t = some (hd :: r :: rs) ∧ ∃ s, g r = some s := by
  unfold Reader.whole at h
  simp only [Option.bind_eq_bind, Option.bind_eq_some_iff] at h
  obtain ⟨tb, h1, h2⟩ := h
  match tb, h1, h2 with
  | hd :: r :: rs, h1, h2 =>
    simp only [Option.bind_eq_bind, Option.bind_eq_some_iff, List.mapM_cons] at h2
    obtain ⟨_, _, _, ⟨s, hs, _⟩, _⟩ := h2
    exact ⟨hd, r, rs, h1, s, hs⟩

private theorem dfa_first {t : Str} {p : ParsedDfa} (h : Fa.dfa t = some p) :
    ∃ hd r rs, Reader.table t = some (hd :: r :: rs) ∧ ∃ s, Reader.row Reader.name r = some s := by
  rw [C103_dfa, Reader.dfa, Option.map_eq_some_iff] at h
  obtain ⟨x, hx, _⟩ := h
  obtain ⟨hd, r, rs, h1, s, hs⟩ := whole_first hx
  rw [Option.map_eq_some_iff] at hs
  obtain ⟨s, hs, _⟩ := hs
  exact ⟨hd, r, rs, h1, s, hs⟩

private theorem nfa_first {t : Str} {p : ParsedNfa} (h : Fa.nfa t = some p) :
    ∃ hd r rs, Reader.table t = some (hd :: r :: rs) ∧ ∃ s, Reader.row Reader.set r = some s := by
  rw [C103_nfa, Reader.nfa, Option.map_eq_some_iff] at h
  obtain ⟨x, hx, _⟩ := h
  obtain ⟨hd, r, rs, h1, s, hs⟩ := whole_first hx
  rw [Option.map_eq_some_iff] at hs
  obtain ⟨s, hs, _⟩ := hs
  exact ⟨hd, r, rs, h1, s, hs⟩

/-- **C123** No text is a table of a DFA and a table of an NFA. -/
theorem C123_tables (t : Str) : Fa.dfa t = none ∨ Fa.nfa t = none := by
  cases h1 : Fa.dfa t with
  | none => exact .inl rfl
  | some p =>
    cases h2 : Fa.nfa t with
    | none => exact .inr rfl
    | some q =>
      obtain ⟨_, r, _, t1, x, hx⟩ := dfa_first h1
      obtain ⟨_, r', _, t2, y, hy⟩ := nfa_first h2
      rw [t1] at t2
      simp only [Option.some.injEq, List.cons.injEq] at t2
      rw [← t2.2.1] at hy
      exact (row_kinds r hx hy).elim

/-- **C123** So if the program is told that a table of an NFA is one of a DFA, or the other way round, it reports that the text cannot be parsed, and
never goes on with something else. -/
theorem C123_wrong_table (cl : Str → Nat) (t : Str) :
    (∀ n, load cl t .nfa = .ok (.nfa n) → ∃ e, load cl t .dfa = .error (.dfaParse e)) ∧
    (∀ d, load cl t .dfa = .ok (.dfa d) → ∃ e, load cl t .nfa = .error (.nfaParse e)) := by
  constructor
  · intro n h
    obtain ⟨p, _, h1, _⟩ := load_nfa_iff.1 h
    have h2 := (C123_tables t).resolve_right (by rw [h1]; simp)
    cases he : FaE.dfa t with
    | ok q => rw [FaE.dfa_ok.1 he] at h2; cases h2
    | error e => exact ⟨e, by unfold load; simp only [he]⟩
  · intro d h
    obtain ⟨p, _, h1, _⟩ := load_dfa_iff.1 h
    have h2 := (C123_tables t).resolve_left (by rw [h1]; simp)
    cases he : FaE.nfa t with
    | ok q => rw [FaE.nfa_ok.1 he] at h2; cases h2
    | error e => exact ⟨e, by unfold load; simp only [he]⟩

/-- Both kinds of tables, nearly the same text. -/
example : (∃ d, load cl1 c!"a b\n-> x x y\n* y y x" .dfa = .ok (.dfa d)) ∧ (∃ n, load cl1 c!"a b\n-> x {x} {y}\n* y {y} {x}" .nfa = .ok (.nfa n)) ∧
    load cl1 c!"a b\n-> x {x} {y}\n* y {y} {x}" .dfa = .error (.dfaParse ⟨c!"{x} {y}\n* y {y} {x}", .takeTill1⟩) ∧
    ∃ e, load cl1 c!"a b\n-> x x y\n* y y x" .nfa = .error (.nfaParse e) :=
  ⟨⟨_, rfl⟩, ⟨_, rfl⟩, rfl, ⟨_, rfl⟩⟩

private theorem lines_one : ∀ t : Str, '\n' ∉ t → ∀ ls, Reader.lines t = some ls → ∃ l, ls = [l]
  | [], _, ls, h => ⟨_, by simpa [Reader.lines] using h.symm⟩
  | c :: t, hn, ls, h => by
    rw [List.mem_cons, not_or] at hn
    have ih := lines_one t hn.2
    unfold Reader.lines at h
    split at h
    · cases ‹_ = []›
    · rename_i heq; cases heq; exact absurd rfl hn.1
    · rename_i heq; cases heq; exact absurd (List.mem_cons_self) hn.2
    · cases h
    · rename_i heq
      cases heq
      rw [Option.map_eq_some_iff] at h
      obtain ⟨ls', h1, rfl⟩ := h
      obtain ⟨l, rfl⟩ := ih _ h1
      exact ⟨_, rfl⟩

/-- **C123** A text in one line is no table: an expression in one line that is taken for a table is reported as well. -/
theorem C123_one_line (cl : Str → Nat) (t : Str) (h : '\n' ∉ t) :
    (∃ e, load cl t .dfa = .error (.dfaParse e)) ∧ ∃ e, load cl t .nfa = .error (.nfaParse e) := by
  have hone : ∀ hd r rs, Reader.table t ≠ some (hd :: r :: rs) := by
    intro hd r rs hc
    unfold Reader.table at hc
    rw [Option.map_eq_some_iff] at hc
    obtain ⟨ls, h1, h2⟩ := hc
    obtain ⟨l, rfl⟩ := lines_one t h ls h1
    have := congrArg List.length h2
    have hle := List.length_filter_le (fun x => decide (x ≠ [])) [Reader.words l]
    simp only [List.map_cons, List.map_nil] at this
    rw [this] at hle
    simp at hle
  constructor
  · cases he : FaE.dfa t with
    | ok q => obtain ⟨_, _, _, h1, _⟩ := dfa_first (FaE.dfa_ok.1 he); exact absurd h1 (hone _ _ _)
    | error e => exact ⟨e, by unfold load; simp only [he]⟩
  · cases he : FaE.nfa t with
    | ok q => obtain ⟨_, _, _, h1, _⟩ := nfa_first (FaE.nfa_ok.1 he); exact absurd h1 (hone _ _ _)
    | error e => exact ⟨e, by unfold load; simp only [he]⟩

example : '\n' ∉ c!"(a|b)*\tabb" ∧ ∃ e, load cl1 c!"(a|b)*\tabb" .regex = .ok (.regex e) := ⟨by decide, _, rfl⟩

private theorem atom_exists {cl : Str → Nat} (h : Segmentation cl) {c : Char} {s : Str} (hc : c ≠ '(' ∧ c ≠ ')' ∧ c ≠ '|' ∧ c ≠ '\\')
    (ho : c ≠ '*' ∧ c ≠ '+') : ∃ m L gs, 1 ≤ m ∧ m ≤ (c :: s).length ∧ AtomL cl (c :: s) ((c :: s).drop m) L gs := by
  by_cases he : c = 'ε'
  · subst he; exact ⟨1, _, _, by simp, by simp, .epsilon⟩
  · by_cases h0 : c = '∅'
    · subst h0; exact ⟨1, _, _, by simp, by simp, .empty⟩
    · exact ⟨cl (c :: s), _, _, h.pos _ (by simp), h.le _, .plain (by unfold IsReserved; grind)⟩

private theorem seq_exists {cl : Str → Nat} (h : Segmentation cl) (core : Str) (hc : ∀ c ∈ core, c ≠ '(' ∧ c ≠ ')' ∧ c ≠ '|' ∧ c ≠ '\\')
    (ho : ∀ a b x, core = a ++ x :: b → x = '*' ∨ x = '+' → ∃ y ∈ a.getLast?, y ≠ '*' ∧ y ≠ '+') :
    ∀ (k : Nat) (a r : Str), r.length ≤ k → core = a ++ r → r ≠ [] → (∀ x ∈ r.head?, x ≠ '*' ∧ x ≠ '+') → ∃ L gs, SeqL cl r [] L gs := by
  intro k
  induction k with
  | zero => intro a r hk _ hne; exact absurd (List.length_eq_zero_iff.1 (by omega)) hne
  | succ k ih =>
    intro a r hk hcore hne hop
    obtain ⟨c, s, rfl⟩ := List.exists_cons_of_ne_nil hne
    obtain ⟨m, L, gs, m1, m2, hat⟩ := atom_exists h (s := s) (hc c (by rw [hcore]; simp)) (hop c rfl)
    have hcore' : core = (a ++ (c :: s).take m) ++ (c :: s).drop m := by rw [List.append_assoc, List.take_append_drop]; exact hcore
    have hlen : ((c :: s).drop m).length ≤ k := by rw [List.length_drop]; omega
    generalize (c :: s).drop m = r' at *
    generalize (c :: s).take m = u at *
    cases r' with
    | nil => exact ⟨_, _, .one (.atom hat)⟩
    | cons x b =>
      by_cases hx : x = '*' ∨ x = '+'
      · have hitem : ∃ L gs, ItemL cl (c :: s) b L gs := by
          rcases hx with rfl | rfl
          · exact ⟨_, _, .star hat⟩
          · exact ⟨_, _, .plus hat⟩
        obtain ⟨L, gs, hitem⟩ := hitem
        cases b with
        | nil => exact ⟨_, _, .one hitem⟩
        | cons y b =>
          have hcore2 : core = ((a ++ u) ++ [x]) ++ y :: b := by rw [hcore']; simp
          obtain ⟨M, hs, hseq⟩ := ih _ (y :: b) (by simp at hlen ⊢; omega) hcore2 (by simp) (by
            intro z hz
            simp only [List.head?_cons, Option.mem_def, Option.some.injEq] at hz
            subst hz
            by_contra hcon
            obtain ⟨w, hw, hw'⟩ := ho _ _ y hcore2 (by tauto)
            rw [List.getLast?_concat, Option.mem_def, Option.some.injEq] at hw
            subst hw
            tauto)
          exact ⟨_, _, .cons hitem hseq⟩
      · obtain ⟨M, hs, hseq⟩ := ih _ (x :: b) hlen hcore' (by simp) (by
          intro z hz
          simp only [List.head?_cons, Option.mem_def, Option.some.injEq] at hz
          subst hz
          tauto)
        exact ⟨_, _, .cons (.atom hat) hseq⟩

/-- **C123** But a table that is taken for an expression need not be noticed: every text is an expression if it does not consist of white space only,
contains no parenthesis, bar or backslash, and has no `*` or `+` at the beginning or after another. -/
theorem C123_expression (cl : Str → Nat) (h : Segmentation cl) (t core : Str) (ht : Trimmed t core) (hne : core ≠ [])
    (hc : ∀ c ∈ core, c ≠ '(' ∧ c ≠ ')' ∧ c ≠ '|' ∧ c ≠ '\\')
    (ho : ∀ a b x, core = a ++ x :: b → x = '*' ∨ x = '+' → ∃ y ∈ a.getLast?, y ≠ '*' ∧ y ≠ '+') :
    ∃ e, load cl t .regex = .ok (.regex e) := by
  obtain ⟨L, gs, hs⟩ := seq_exists h core hc ho _ [] core (Nat.le_refl _) rfl hne (by
    intro x hx
    cases core with
    | nil => cases hx
    | cons c s =>
      cases hx
      by_contra hcon
      obtain ⟨y, hy, _⟩ := ho [] s x rfl (by tauto)
      cases hy)
  obtain ⟨e, he⟩ := (C36_accepts_iff cl h t core ht).2 ⟨L, gs, .one hs⟩
  exact ⟨e, load_regex_iff.2 ⟨e, he, rfl⟩⟩

/-- The text of an NFA, with a comment. -/
example : Trimmed c!"ε a # A\n* x {} {y}\n" c!"ε a # A\n* x {} {y}" ∧ (∃ e, load cl1 c!"ε a # A\n* x {} {y}\n" .regex = .ok (.regex e)) ∧
    (∀ c ∈ c!"ε a # A\n* x {} {y}", c ≠ '(' ∧ c ≠ ')' ∧ c ≠ '|' ∧ c ≠ '\\') ∧
    ∀ i, i < c!"ε a # A\n* x {} {y}".length → c!"ε a # A\n* x {} {y}".getD i ' ' ∈ c!"*+" → 0 < i ∧ c!"ε a # A\n* x {} {y}".getD (i - 1) ' ' ∉ c!"*+" :=
  ⟨⟨[], ['\n'], by simp, by simp, by intro c hc; simp at hc; subst hc; decide, by intro c hc; cases hc; decide, by intro c hc; cases hc; decide⟩,
    ⟨_, rfl⟩, by decide, by decide⟩

private theorem seq_word {cl : Str → Nat} (h : Segmentation cl) : ∀ (k : Nat) (r : Str), r.length ≤ k → r ≠ [] → (∀ c ∈ r, ¬ IsReserved c) →
    ∃ (w : Word) (gs : List Str), w.flatten = r ∧ SeqL cl r [] {w} gs := by
  intro k
  induction k with
  | zero => intro r hk hne; exact absurd (List.length_eq_zero_iff.1 (by omega)) hne
  | succ k ih =>
    intro r hk hne hr
    obtain ⟨c, s, rfl⟩ := List.exists_cons_of_ne_nil hne
    have hat := AtomL.plain (cl := cl) (s := s) (hr c List.mem_cons_self)
    have hp := h.pos (c :: s) (by simp)
    have htd := List.take_append_drop (cl (c :: s)) (c :: s)
    have hlen : ((c :: s).drop (cl (c :: s))).length ≤ k := by rw [List.length_drop]; omega
    have hsub : ∀ x ∈ (c :: s).drop (cl (c :: s)), ¬ IsReserved x := fun x hx => hr x (List.mem_of_mem_drop hx)
    generalize (c :: s).drop (cl (c :: s)) = r' at *
    generalize (c :: s).take (cl (c :: s)) = u at *
    by_cases h0 : r' = []
    · subst h0
      exact ⟨[u], _, by simpa using htd, .one (.atom hat)⟩
    · obtain ⟨w, gs, hw, hs⟩ := ih r' hlen h0 hsub
      refine ⟨u :: w, [u] ++ gs, by simp [hw, htd], ?_⟩
      have := SeqL.cons (.atom hat) hs
      rwa [show ({[u]} : Language Str) * {w} = {u :: w} from by
        ext x
        simp only [Language.mem_mul]
        constructor
        · rintro ⟨_, rfl, _, rfl, rfl⟩; rfl
        · rintro rfl; exact ⟨_, rfl, _, rfl, rfl⟩] at this

/-- **C123** With no reserved character at all, the text stands for one word, namely itself, without white space around it. -/
theorem C123_one_word (cl : Str → Nat) (h : Segmentation cl) (t core : Str) (ht : Trimmed t core) (hne : core ≠ []) (hr : ∀ c ∈ core, ¬ IsReserved c) :
    ∃ e w, load cl t .regex = .ok (.regex e) ∧ w.flatten = core ∧ ∀ v, (toNfa e).accepts v = true ↔ v = w := by
  obtain ⟨w, gs, hw, hs⟩ := seq_word h _ core (Nat.le_refl _) hne hr
  obtain ⟨e, he⟩ := (C36_accepts_iff cl h t core ht).2 ⟨_, gs, .one hs⟩
  refine ⟨e, w, load_regex_iff.2 ⟨e, he, rfl⟩, hw, fun v => ?_⟩
  rw [(C36_to_nfa cl h t core ht e he _ gs (.one hs)).1 v]
  rfl

example : ((regex cl1 c!" a b\n-> x x x ").map fun e => (toNfa e).accepts (c!"a b\n-> x x x".map s)) = some true := by decide +kernel

/-- **C123 does not hold for expressions** The text of a DFA that is also an expression, with other words: taking it for one is not noticed. -/
theorem C123_expression_false : ∃ (t : Str) (d : Dfa) (e : RegexTree), load cl1 t .dfa = .ok (.dfa d) ∧ load cl1 t .regex = .ok (.regex e) ∧
    d.accepts [s 'b'] = true ∧ (toNfa e).accepts [s 'b'] = false :=
  ⟨c!"a b\n-> x x y\n* y y x", _, _, rfl, rfl, by decide +kernel, by decide +kernel⟩

end Dandy
