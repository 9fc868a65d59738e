import Verif.Spec.Site
import Verif.Proofs.Wasm
import Verif.Proofs.ErrorTexts
import Verif.Props.Backends
/-! # The handlers of the page -/

namespace Dandy
namespace Site
open Cli (AutomataType Automata IsTextOf)
open Cli.Automata (load)
open TableText (Name)
open Wasm (Store Result Map)

/-! ## line ends -/

theorem normalize_self {t : Str} (h : '\r' ∉ t) : normalize t = t := by
  induction t with
  | nil => rfl
  | cons c t ih =>
    rw [List.mem_cons, not_or] at h
    rw [normalize.eq_4 _ _ (fun _ e => absurd e.symm h.1) (fun e => absurd e.symm h.1), ih h.2]

theorem normalize_replaceFirst {t : Str} (h : '\r' ∉ t) : normalize (replaceFirst t) = t := by
  induction t with
  | nil => rfl
  | cons c t ih =>
    rw [List.mem_cons, not_or] at h
    by_cases hc : c = '\n'
    · subst hc
      rw [replaceFirst, normalize, normalize_self h.2]
    · rw [replaceFirst.eq_3 _ _ (fun e => hc e), normalize.eq_4 _ _ (fun _ e => absurd e.symm h.1) (fun e => absurd e.symm h.1), ih h.2]

/-! ## tables contain no carriage returns -/

theorem rows_foldl (rows : List (List Str)) (t : Table) : (rows.foldl Table.pushRow t).rows = t.rows ++ rows := by
  induction rows generalizing t with
  | nil => simp
  | cons r rows ih => rw [List.foldl_cons, ih]; simp [Table.pushRow]

theorem mem_intercalate {c : Char} {sep : Str} {l : List Str} (h : c ∈ List.intercalate sep l) : c ∈ sep ∨ ∃ x ∈ l, c ∈ x := by
  induction l with
  | nil => simp [List.intercalate] at h
  | cons a l ih =>
    cases l with
    | nil => right; exact ⟨a, List.mem_cons_self, by simpa [List.intercalate] using h⟩
    | cons b l =>
      have e : List.intercalate sep (a :: b :: l) = a ++ sep ++ List.intercalate sep (b :: l) := by
        simp [List.intercalate]
      rw [e, List.mem_append, List.mem_append] at h
      rcases h with (h | h) | h
      · exact .inr ⟨a, List.mem_cons_self, h⟩
      · exact .inl h
      · rcases ih h with h | ⟨x, h1, h2⟩
        · exact .inl h
        · exact .inr ⟨x, List.mem_cons_of_mem _ h1, h2⟩

/-- Every character of a printed table other than blanks and line ends is in a cell. -/
theorem mem_toString {c : Char} {t : Table} {s : Str} (h : t.toString [' '] = some s) (hc : c ∈ s) :
    c = ' ' ∨ c = '\n' ∨ ∃ row ∈ t.rows, ∃ x ∈ row, c ∈ x := by
  unfold Table.toString at h
  split at h
  · cases h
  · rw [Option.some.injEq] at h
    subst h
    rcases mem_intercalate hc with h | ⟨x, hx, h⟩
    · rw [List.mem_singleton] at h
      exact .inr (.inl h)
    · obtain ⟨row, hr, rfl⟩ := List.mem_map.1 hx
      unfold Table.rowString at h
      obtain ⟨y, hy, h⟩ := List.mem_flatten.1 h
      obtain ⟨z, hz, rfl⟩ := List.mem_map.1 hy
      rcases List.mem_append.1 h with h | h
      · unfold Table.pad at h
        split at h
        · rcases List.mem_append.1 h with h | h
          · exact .inr (.inr ⟨row, hr, z.1, (List.of_mem_zip hz).1, h⟩)
          · exact .inl (List.eq_of_mem_replicate h)
        · exact .inr (.inr ⟨row, hr, z.1, (List.of_mem_zip hz).1, h⟩)
      · exact .inl (List.mem_singleton.1 h)

theorem mem_namesOf {σ : Type} {name : σ → Str} {states : List σ} {cs : List Nat} {ns : List Str} (h : namesOf name states cs = some ns) :
    ∀ x ∈ ns, ∃ s ∈ states, x = name s := by
  unfold namesOf at h
  induction cs generalizing ns with
  | nil => rw [List.mapM_nil] at h; cases h; intro x hx; cases hx
  | cons c cs ih =>
    rw [List.mapM_cons] at h
    cases h1 : states[c]? with
    | none => rw [h1] at h; cases h
    | some s =>
      rw [h1] at h
      cases h2 : cs.mapM (fun c => states[c]?.map name) with
      | none => rw [h2] at h; cases h
      | some ms =>
        rw [h2] at h
        cases h
        intro x hx
        rcases List.mem_cons.1 hx with rfl | hx
        · exact ⟨s, List.mem_of_getElem? h1, rfl⟩
        · exact ih h2 x hx

theorem mem_mapM {α β : Type} {f : α → Option β} {l : List α} {r : List β} (h : l.mapM f = some r) : ∀ y ∈ r, ∃ x ∈ l, f x = some y := by
  induction l generalizing r with
  | nil => rw [List.mapM_nil] at h; cases h; intro x hx; cases hx
  | cons a l ih =>
    rw [List.mapM_cons] at h
    cases h1 : f a with
    | none => rw [h1] at h; cases h
    | some b =>
      rw [h1] at h
      cases h2 : l.mapM f with
      | none => rw [h2] at h; cases h
      | some ms =>
        rw [h2] at h
        cases h
        intro y hy
        rcases List.mem_cons.1 hy with rfl | hy
        · exact ⟨a, List.mem_cons_self, h1⟩
        · obtain ⟨x, hx, e⟩ := ih h2 y hy
          exact ⟨x, List.mem_cons_of_mem _ hx, e⟩

theorem dfa_table_cr {d : Dfa} {t : Str} (h : d.toTable = some t) (ha : ∀ e ∈ d.alphabet, '\r' ∉ e) (hs : ∀ s ∈ d.states, '\r' ∉ s.name) :
    '\r' ∉ t := by
  intro hc
  unfold Dfa.toTable Dfa.genTable at h
  split at h
  · cases h
  · rename_i rows hrows
    rcases mem_toString h hc with h | h | ⟨row, hr, x, hx, h⟩
    · exact absurd h (by decide)
    · exact absurd h (by decide)
    · rw [rows_foldl] at hr
      rcases List.mem_append.1 hr with hr | hr
      · simp only [Table.pushRow, Table.empty, List.nil_append, List.mem_singleton] at hr
        subst hr
        rcases List.mem_append.1 hx with hx | hx
        · simp only [List.mem_cons, List.not_mem_nil, or_false, or_self] at hx
          subst hx
          cases h
        · exact ha x hx h
      · obtain ⟨st, hst, hrow⟩ := mem_mapM hrows row hr
        unfold Dfa.tableRow at hrow
        obtain ⟨ns, hns, rfl⟩ := Option.map_eq_some_iff.1 hrow
        rcases List.mem_append.1 hx with hx | hx
        · simp only [List.mem_cons, List.not_mem_nil, or_false] at hx
          rcases hx with rfl | rfl | rfl
          · split at h <;> simp at h
          · split at h <;> simp at h
          · exact hs _ hst h
        · obtain ⟨s', hs', rfl⟩ := mem_namesOf hns x hx
          exact hs _ hs' h

theorem nfa_table_cr {n : Nfa} {t : Str} (h : n.toTable = some t) (ha : ∀ e ∈ n.alphabet, '\r' ∉ e) (hs : ∀ s ∈ n.states, '\r' ∉ s.name) :
    '\r' ∉ t := by
  intro hc
  unfold Nfa.toTable Nfa.genTable at h
  split at h
  · cases h
  · rename_i rows hrows
    rcases mem_toString h hc with h | h | ⟨row, hr, x, hx, h⟩
    · exact absurd h (by decide)
    · exact absurd h (by decide)
    · rw [rows_foldl] at hr
      rcases List.mem_append.1 hr with hr | hr
      · simp only [Table.pushRow, Table.empty, List.nil_append, List.mem_singleton] at hr
        subst hr
        rcases List.mem_append.1 hx with hx | hx
        · simp only [List.mem_cons, List.not_mem_nil, or_false, or_self] at hx
          rcases hx with rfl | rfl | rfl | rfl <;> simp at h
        · exact ha x hx h
      · obtain ⟨st, hst, hrow⟩ := mem_mapM hrows row hr
        unfold Nfa.tableRow at hrow
        obtain ⟨ns, hns, rfl⟩ := Option.map_eq_some_iff.1 hrow
        rcases List.mem_append.1 hx with hx | hx
        · simp only [List.mem_cons, List.not_mem_nil, or_false] at hx
          rcases hx with rfl | rfl | rfl
          · split at h <;> simp at h
          · split at h <;> simp at h
          · exact hs _ hst h
        · obtain ⟨cs, _, hcell⟩ := mem_mapM hns x hx
          unfold Nfa.setCell at hcell
          obtain ⟨ms, hms, rfl⟩ := Option.map_eq_some_iff.1 hcell
          simp only [List.cons_append, List.mem_cons, List.mem_append, List.not_mem_nil, or_false] at h
          rcases h with h | h | h
          · exact absurd h (by decide)
          · rcases mem_intercalate h with h | ⟨y, hy, h⟩
            · exact absurd (List.mem_singleton.1 h) (by decide)
            · obtain ⟨s', hs', rfl⟩ := mem_namesOf hms y hy
              exact hs _ hs' h
          · exact absurd h (by decide)

theorem name_cr {t : Str} (h : Name t) : '\r' ∉ t := fun hc => absurd (h.2.1 _ hc).1 (by decide)

/-! ## loading -/

/-- No key from the counter on is in use. -/
def Fresh (s : Store) : Prop := ∀ k, s.nextKey ≤ k → s.dfas.get k = none ∧ s.nfas.get k = none ∧ s.regexes.get k = none

theorem insert_absent {α : Type} {m : Map α} {k : Nat} (h : m.get k = none) (a : α) : m.insert k a = (k, a) :: m := by
  unfold Map.insert
  rw [Wasm.remove_absent h]

theorem remove_head {α : Type} {m : Map α} {k : Nat} (h : m.get k = none) (a : α) : Map.remove ((k, a) :: m) k = m := by
  have : Map.remove ((k, a) :: m) k = m.remove k := by simp [Map.remove, List.filter_cons]
  rw [this, Wasm.remove_absent h]

theorem remove_second {α : Type} {m : Map α} {k l : Nat} (hkl : k ≠ l) (h : m.get l = none) (a b : α) :
    Map.remove ((k, a) :: (l, b) :: m) l = (k, a) :: m := by
  have : Map.remove ((k, a) :: (l, b) :: m) l = (k, a) :: m.remove l := by simp [Map.remove, List.filter_cons, hkl]
  rw [this, Wasm.remove_absent h]

theorem put_head {α : Type} {m : Map α} {k : Nat} (h : m.get k = none) (a b : α) : Map.put ((k, a) :: m) k b = (k, b) :: m := by
  have e : ∀ m : Map α, m.get k = none → Map.put m k b = m := by
    intro m
    induction m with
    | nil => intro _; rfl
    | cons x m ih =>
      intro hm
      rw [Wasm.get_cons] at hm
      split at hm
      · cases hm
      · rename_i hne
        show (if x.1 == k then (x.1, b) else x) :: Map.put m k b = x :: m
        rw [ih hm, if_neg (by simpa using Ne.symm hne)]
  show (if k == k then (k, b) else (k, a)) :: Map.put m k b = _
  rw [e m h, if_pos (by simp)]

theorem legal_dfa {cl : Str → Nat} {t : Str} {d : Dfa} (h : IsTextOf cl t (.dfa d)) : Legal cl .dfa t := ⟨_, rfl, h⟩

theorem tells_dfa {cl : Str → Nat} (hcl : Segmentation cl) {plain : Char → Bool} {s s' : Store} {t : Str} {e : Wasm.LoadError}
    (h : Wasm.loadDfa s t = (s', .loaded (.error e))) : Tells cl plain .dfa t (e.text plain c!"DFA") := by
  refine ⟨_, (Wasm.loadDfa_error (env := ⟨cl, fun _ => true⟩) hcl h).2, ?_⟩
  cases e <;> first | rfl | exact Cli.defectText_eq _

theorem tells_nfa {cl : Str → Nat} (hcl : Segmentation cl) {plain : Char → Bool} {s s' : Store} {t : Str} {e : Wasm.LoadError}
    (h : Wasm.loadNfa s t = (s', .loaded (.error e))) : Tells cl plain .nfa t (e.text plain c!"NFA") := by
  refine ⟨_, (Wasm.loadNfa_error (env := ⟨cl, fun _ => true⟩) hcl h).2, ?_⟩
  cases e <;> first | rfl | exact Cli.defectText_eq _

theorem tells_regex {env : Wasm.Env} (hcl : Segmentation env.cl) {plain : Char → Bool} {s s' : Store} {t : Str} {e : Wasm.LoadError}
    (h : Wasm.loadRegex env s t = (s', .loaded (.error e))) : Tells env.cl plain .regex t (e.text plain c!"Regex") := by
  obtain ⟨⟨x, rfl⟩, h2⟩ := Wasm.loadRegex_error hcl h
  exact ⟨_, h2, rfl⟩

/-- The message is on one line. -/
theorem tells_line {cl : Str → Nat} {plain : Char → Bool} {ty : Cli.AutomataType} {t m : Str} (h : Tells cl plain ty t m) : NoBreak m := by
  obtain ⟨e, he, rfl⟩ := h
  have := Cli.explains_noBreak he plain
  cases e with
  | file p msg => exact this.elim
  | dfaParse x => exact NoBreak.append.2 ⟨by unfold NoBreak; decide, this⟩
  | nfaParse x => exact NoBreak.append.2 ⟨by unfold NoBreak; decide, this⟩
  | regexParse x => exact NoBreak.append.2 ⟨by unfold NoBreak; decide, this⟩
  | dfaCompile x => exact this
  | nfaCompile x => exact this

/-- Loading a DFA. -/
theorem load_dfa_cases {cl : Str → Nat} (hcl : Segmentation cl) (t : Str) :
    (∃ d, IsTextOf cl t (.dfa d) ∧ DGood Name (fun _ => True) d ∧ d.alphabet ≠ [] ∧ (∀ e ∈ d.alphabet, Name e) ∧
      (∀ a : Automata, a.getType = .dfa → IsTextOf cl t a → ∃ d', a = .dfa d' ∧ d'.alphabet = d.alphabet ∧ ∀ w, d'.Lang w ↔ d.Lang w) ∧
      ∀ s, Fresh s → Wasm.loadDfa s t = ({ s with dfas := (s.nextKey, d) :: s.dfas, nextKey := s.nextKey + 1 }, .loaded (.ok s.nextKey))) ∨
    (¬ Legal cl .dfa t ∧ ∃ e : Wasm.LoadError, (∀ plain, Tells cl plain .dfa t (e.text plain c!"DFA")) ∧
      ∀ s, Wasm.loadDfa s t = (s, .loaded (.error e))) := by
  have hl := C61_load_succeeds_iff cl hcl t .dfa
  cases h1 : FaE.dfa t with
  | error x =>
    right
    constructor
    · intro h
      obtain ⟨a, ha⟩ := hl.2 h
      obtain ⟨p, d, h2, _⟩ := Cli.Automata.load_dfa_iff.1 ha
      rw [FaE.dfa_ok.2 h2] at h1
      cases h1
    · have h2 : ∀ s, Wasm.loadDfa s t = (s, .loaded (.error (.parse x))) := fun s => by unfold Wasm.loadDfa; rw [h1]
      exact ⟨.parse x, fun plain => tells_dfa hcl (h2 .init), h2⟩
  | ok p =>
    cases h2 : Validate.dfa p with
    | error e =>
      right
      constructor
      · intro h
        obtain ⟨a, ha⟩ := hl.2 h
        obtain ⟨p', d, h3, h4, _⟩ := Cli.Automata.load_dfa_iff.1 ha
        rw [FaE.dfa_ok.2 h3] at h1
        cases h1
        rw [h2] at h4
        cases h4
      · have h3 : ∀ s, Wasm.loadDfa s t = (s, .loaded (.error (.validate e))) := fun s => by
          unfold Wasm.loadDfa; rw [h1]; dsimp only; rw [h2]
        exact ⟨.validate e, fun plain => tells_dfa hcl (h3 .init), h3⟩
    | ok d =>
      left
      have hld := Cli.Automata.load_dfa_iff (cl := cl) (text := t) |>.2 ⟨p, d, FaE.dfa_ok.1 h1, h2, rfl⟩
      obtain ⟨_, _, g1, g2⟩ := C61_load_content cl hcl t .dfa (.dfa d) hld
      obtain ⟨e1, e2, e3, e4⟩ := C40_parsed t p d (FaE.dfa_ok.1 h1) h2
      refine ⟨d, g1, ⟨e1, e4, trivial⟩, e2, e3, ?_, ?_⟩
      · intro a ha hta
        cases a with
        | dfa d' =>
          obtain ⟨g3, g4⟩ := g2 _ ha hta
          exact ⟨d', rfl, ((g3 _).1 rfl).symm, fun w => (g4 w).symm⟩
        | nfa => cases ha
        | regex => cases ha
      · intro s hs
        unfold Wasm.loadDfa
        rw [h1]
        dsimp only
        rw [h2]
        simp only [Wasm.pushDfa, Wasm.genKey]
        rw [insert_absent (hs _ (Nat.le_refl _)).1]

/-- Loading an NFA. -/
theorem load_nfa_cases {cl : Str → Nat} (hcl : Segmentation cl) (t : Str) :
    (∃ n, IsTextOf cl t (.nfa n) ∧ NGood Name (fun _ => True) n ∧ (∀ e ∈ n.alphabet, Name e) ∧
      (∀ a : Automata, a.getType = .nfa → IsTextOf cl t a → ∃ n', a = .nfa n' ∧ n'.alphabet = n.alphabet ∧ ∀ w, n'.Lang w ↔ n.Lang w) ∧
      ∀ s, Fresh s → Wasm.loadNfa s t = ({ s with nfas := (s.nextKey, n) :: s.nfas, nextKey := s.nextKey + 1 }, .loaded (.ok s.nextKey))) ∨
    (¬ Legal cl .nfa t ∧ ∃ e : Wasm.LoadError, (∀ plain, Tells cl plain .nfa t (e.text plain c!"NFA")) ∧
      ∀ s, Wasm.loadNfa s t = (s, .loaded (.error e))) := by
  have hl := C61_load_succeeds_iff cl hcl t .nfa
  cases h1 : FaE.nfa t with
  | error x =>
    right
    constructor
    · intro h
      obtain ⟨a, ha⟩ := hl.2 h
      obtain ⟨p, d, h2, _⟩ := Cli.Automata.load_nfa_iff.1 ha
      rw [FaE.nfa_ok.2 h2] at h1
      cases h1
    · have h2 : ∀ s, Wasm.loadNfa s t = (s, .loaded (.error (.parse x))) := fun s => by unfold Wasm.loadNfa; rw [h1]
      exact ⟨.parse x, fun plain => tells_nfa hcl (h2 .init), h2⟩
  | ok p =>
    cases h2 : Validate.nfa p with
    | error e =>
      right
      constructor
      · intro h
        obtain ⟨a, ha⟩ := hl.2 h
        obtain ⟨p', d, h3, h4, _⟩ := Cli.Automata.load_nfa_iff.1 ha
        rw [FaE.nfa_ok.2 h3] at h1
        cases h1
        rw [h2] at h4
        cases h4
      · have h3 : ∀ s, Wasm.loadNfa s t = (s, .loaded (.error (.validate e))) := fun s => by
          unfold Wasm.loadNfa; rw [h1]; dsimp only; rw [h2]
        exact ⟨.validate e, fun plain => tells_nfa hcl (h3 .init), h3⟩
    | ok n =>
      left
      have hld := Cli.Automata.load_nfa_iff (cl := cl) (text := t) |>.2 ⟨p, n, FaE.nfa_ok.1 h1, h2, rfl⟩
      obtain ⟨_, _, g1, g2⟩ := C61_load_content cl hcl t .nfa (.nfa n) hld
      obtain ⟨e1, e3, e4⟩ := C41_parsed t p n (FaE.nfa_ok.1 h1) h2
      refine ⟨n, g1, ⟨e1, e4, trivial⟩, e3, ?_, ?_⟩
      · intro a ha hta
        cases a with
        | nfa n' =>
          obtain ⟨g3, g4⟩ := g2 _ ha hta
          exact ⟨n', rfl, ((g3 _).1 rfl).symm, fun w => (g4 w).symm⟩
        | dfa => cases ha
        | regex => cases ha
      · intro s hs
        unfold Wasm.loadNfa
        rw [h1]
        dsimp only
        rw [h2]
        simp only [Wasm.pushNfa, Wasm.genKey]
        rw [insert_absent (hs _ (Nat.le_refl _)).2.1]

/-- Loading an expression. -/
theorem load_regex_cases (env : Env) (hcl : Segmentation env.cl) (t : Str) :
    (∃ r, IsTextOf env.cl t (.regex r) ∧
      (∀ a : Automata, a.getType = .regex → IsTextOf env.cl t a → ∃ r', a = .regex r' ∧
        (∀ l, (Automata.regex r').HasAlphabet l ↔ (Automata.regex r).HasAlphabet l) ∧ ∀ w, Matches r' w ↔ Matches r w) ∧
      ∀ s, Fresh s → Wasm.loadRegex env.wasm s t =
        ({ s with regexes := (s.nextKey, r) :: s.regexes, nextKey := s.nextKey + 1 }, .loaded (.ok s.nextKey))) ∨
    (¬ Legal env.cl .regex t ∧ ∃ e : Wasm.LoadError, (∀ plain, Tells env.cl plain .regex t (e.text plain c!"Regex")) ∧
      ∀ s, Wasm.loadRegex env.wasm s t = (s, .loaded (.error e))) := by
  have hl := C61_load_succeeds_iff env.cl hcl t .regex
  cases h1 : RegexE.regex env.cl t with
  | error x =>
    right
    constructor
    · intro h
      obtain ⟨a, ha⟩ := hl.2 h
      obtain ⟨r, h2, _⟩ := Cli.Automata.load_regex_iff.1 ha
      rw [RegexE.regex_ok.2 h2] at h1
      cases h1
    · have h2 : ∀ s, Wasm.loadRegex env.wasm s t = (s, .loaded (.error (.parse x))) := fun s => by
        unfold Wasm.loadRegex; rw [show env.wasm.cl = env.cl from rfl, h1]
      exact ⟨.parse x, fun plain => tells_regex (env := env.wasm) hcl (h2 .init), h2⟩
  | ok r =>
    left
    have hld := Cli.Automata.load_regex_iff (cl := env.cl) (text := t) |>.2 ⟨r, RegexE.regex_ok.1 h1, rfl⟩
    obtain ⟨_, _, g1, g2⟩ := C61_load_content env.cl hcl t .regex (.regex r) hld
    refine ⟨r, g1, ?_, ?_⟩
    · intro a ha hta
      cases a with
      | regex r' =>
        obtain ⟨g3, g4⟩ := g2 _ ha hta
        exact ⟨r', rfl, fun l => (g3 l).symm, fun w => (g4 w).symm⟩
      | dfa => cases ha
      | nfa => cases ha
    · intro s hs
      unfold Wasm.loadRegex
      rw [show env.wasm.cl = env.cl from rfl, h1]
      simp only [Wasm.pushRegex, Wasm.genKey]
      rw [insert_absent (hs _ (Nat.le_refl _)).2.2]

theorem legal_nfa {cl : Str → Nat} {t : Str} {n : Nfa} (h : IsTextOf cl t (.nfa n)) : Legal cl .nfa t := ⟨_, rfl, h⟩

theorem fresh_dfa {s : Store} (h : Fresh s) (d : Dfa) : Fresh { s with dfas := (s.nextKey, d) :: s.dfas, nextKey := s.nextKey + 1 } := by
  intro k hk
  have hlt : s.nextKey < k := hk
  obtain ⟨h1, h2, h3⟩ := h k (Nat.le_of_lt hlt)
  exact ⟨by rw [Wasm.get_cons, if_neg (Nat.ne_of_gt hlt)]; exact h1, h2, h3⟩

theorem fresh_nfa {s : Store} (h : Fresh s) (d : Nfa) : Fresh { s with nfas := (s.nextKey, d) :: s.nfas, nextKey := s.nextKey + 1 } := by
  intro k hk
  have hlt : s.nextKey < k := hk
  obtain ⟨h1, h2, h3⟩ := h k (Nat.le_of_lt hlt)
  exact ⟨h1, by rw [Wasm.get_cons, if_neg (Nat.ne_of_gt hlt)]; exact h2, h3⟩


/-- The button comparing DFAs. -/
theorem checkDfaEq_run (env : Env) (hcl : Segmentation env.cl) (p : Page) (hf : Fresh p.store) :
    ∃ q, checkDfaEq env p = some q ∧ Fresh q.store ∧ OnlyChanges .dfaEq p q ∧ q.objects = p.objects + leaked env.cl p .dfaEq ∧
      Checked env.cl env.plain .dfa c!"DFA 1" c!"DFA 2" (p.value .dfaEq1) (p.value .dfaEq2) (q.label .dfaEq) q.dfaErrors := by
  rcases load_dfa_cases hcl (p.value .dfaEq1) with ⟨d1, a1, a2, _, _, a5, a6⟩ | ⟨a1, e1, a7, a2⟩ <;>
  rcases load_dfa_cases hcl (p.value .dfaEq2) with ⟨d2, b1, b2, _, _, b5, b6⟩ | ⟨b1, e2, b7, b2⟩
  · -- both legal
    have hf1 := fresh_dfa hf d1
    have hf2 := fresh_dfa hf1 d2
    obtain ⟨⟨b, e5⟩, e6⟩ := C11_dfa_equivalent_to d1 d2 a2.1 b2.1
    have hsame : SameTexts env.cl .dfa (p.value .dfaEq1) (p.value .dfaEq2) ↔ b = true := by
      rw [e5, Option.some.injEq] at e6
      rw [e6]
      constructor
      · rintro ⟨x, y, hx, hy, hx', hy', hs⟩
        obtain ⟨x', rfl, x1, x2⟩ := a5 x hx hx'
        obtain ⟨y', rfl, y1, y2⟩ := b5 y hy hy'
        have hs1 : SameElems x'.alphabet y'.alphabet := hs.1
        rw [x1, y1] at hs1
        exact ⟨hs1, fun w => (x2 w).symm.trans ((hs.2 w).trans (y2 w))⟩
      · rintro ⟨h1, h2⟩
        exact ⟨_, _, rfl, rfl, a1, b1, h1, h2⟩
    have hget1 : Map.get ((p.store.nextKey + 1, d2) :: (p.store.nextKey, d1) :: p.store.dfas) p.store.nextKey = some d1 := by
      rw [Wasm.get_cons, if_neg (by simp), Wasm.get_cons, if_pos rfl]
    have hget2 : Map.get ((p.store.nextKey + 1, d2) :: (p.store.nextKey, d1) :: p.store.dfas) (p.store.nextKey + 1) = some d2 := by
      rw [Wasm.get_cons, if_pos rfl]
    have habs1 : Map.get p.store.dfas p.store.nextKey = none := (hf _ (Nat.le_refl _)).1
    have habs2 : Map.get p.store.dfas (p.store.nextKey + 1) = none := (hf _ (Nat.le_succ _)).1
    have hrun : checkDfaEq env p = some { p.setLabel .dfaEq (verdictText (.verdict (some b))) with
        store := { p.store with nextKey := p.store.nextKey + 2 }, dfaErrors := [] } := by
      unfold checkDfaEq loadTwo
      simp only [a6 _ hf, loadResult, b6 _ hf1, if_true, Wasm.checkDfaEq, hget1, hget2, e5, Option.bind_eq_bind, Option.bind_some,
        Option.pure_def, Wasm.deleteDfa]
      rw [remove_second (by simp) habs1, remove_head habs2]
    refine ⟨_, hrun, ?_, ⟨fun b' hb' => if_neg hb', fun _ _ _ _ => rfl, fun h => absurd rfl h, fun _ => rfl, fun _ => rfl⟩, ?_, ?_⟩
    · exact fun k hk => hf k (Nat.le_trans (Nat.le_add_right _ 2) hk)
    · have : leaked env.cl p .dfaEq = 0 := if_pos (iff_of_true (legal_dfa a1) (legal_dfa b1))
      rw [this]
      rfl
    · refine ⟨⟨[], [], rfl, .inl ⟨legal_dfa a1, rfl⟩, .inl ⟨legal_dfa b1, rfl⟩⟩, ?_, ?_, fun h => absurd ⟨legal_dfa a1, legal_dfa b1⟩ h⟩
      · intro h
        rw [hsame] at h
        subst h
        rfl
      · intro _ _ h
        rw [hsame] at h
        cases b
        · rfl
        · exact absurd rfl h
  · -- the second is not legal
    have hrun : checkDfaEq env p = some { p.setLabel .dfaEq c!"Fix errors first!" with
        store := { p.store with dfas := (p.store.nextKey, d1) :: p.store.dfas, nextKey := p.store.nextKey + 1 },
        dfaErrors := [] ++ (c!"Error parsing " ++ c!"DFA" ++ c!" 2: " ++ e2.text env.plain c!"DFA" ++ c!"\n") } := by
      unfold checkDfaEq loadTwo
      simp only [a6 _ hf, loadResult, b2]
      rw [if_neg (by simp)]
      rfl
    refine ⟨_, hrun, fresh_dfa hf d1, ⟨fun b' hb' => if_neg hb', fun _ _ _ _ => rfl, fun h => absurd rfl h, fun _ => rfl, fun _ => rfl⟩, ?_, ?_⟩
    · have : leaked env.cl p .dfaEq = 1 := if_neg (fun h => b1 (h.1 (legal_dfa a1)))
      rw [this]
      simp only [Page.objects, List.length_cons, Page.setLabel]
      omega
    · refine ⟨⟨[], _, rfl, .inl ⟨legal_dfa a1, rfl⟩, .inr ⟨b1, e2.text env.plain c!"DFA", b7 env.plain, by simp⟩⟩, ?_, fun _ h => absurd h b1, fun _ => rfl⟩
      rintro ⟨x, y, hx, hy, hx', hy', hs⟩
      exact absurd ⟨y, hy, hy'⟩ b1
  · -- the first is not legal
    have hrun : checkDfaEq env p = some { p.setLabel .dfaEq c!"Fix errors first!" with
        store := { p.store with dfas := (p.store.nextKey, d2) :: p.store.dfas, nextKey := p.store.nextKey + 1 },
        dfaErrors := [] ++ (c!"Error parsing " ++ c!"DFA" ++ c!" 1: " ++ e1.text env.plain c!"DFA" ++ c!"\n") } := by
      unfold checkDfaEq loadTwo
      simp only [a2, loadResult, b6 _ hf]
      rw [if_neg (by simp)]
      rfl
    refine ⟨_, hrun, fresh_dfa hf d2, ⟨fun b' hb' => if_neg hb', fun _ _ _ _ => rfl, fun h => absurd rfl h, fun _ => rfl, fun _ => rfl⟩, ?_, ?_⟩
    · have : leaked env.cl p .dfaEq = 1 := if_neg (fun h => a1 (h.2 (legal_dfa b1)))
      rw [this]
      simp only [Page.objects, List.length_cons, Page.setLabel]
      omega
    · refine ⟨⟨_, [], (List.append_nil _).symm, .inr ⟨a1, e1.text env.plain c!"DFA", a7 env.plain, by simp⟩, .inl ⟨legal_dfa b1, rfl⟩⟩, ?_, fun h => absurd h a1, fun _ => rfl⟩
      rintro ⟨x, y, hx, hy, hx', hy', hs⟩
      exact absurd ⟨x, hx, hx'⟩ a1
  · -- none is legal
    have hrun : checkDfaEq env p = some { p.setLabel .dfaEq c!"Fix errors first!" with
        dfaErrors := [] ++ (c!"Error parsing " ++ c!"DFA" ++ c!" 1: " ++ e1.text env.plain c!"DFA" ++ c!"\n") ++
          (c!"Error parsing " ++ c!"DFA" ++ c!" 2: " ++ e2.text env.plain c!"DFA" ++ c!"\n") } := by
      unfold checkDfaEq loadTwo
      simp only [a2, loadResult, b2]
      rw [if_neg (by simp)]
      rfl
    refine ⟨_, hrun, hf, ⟨fun b' hb' => if_neg hb', fun _ _ _ _ => rfl, fun h => absurd rfl h, fun _ => rfl, fun _ => rfl⟩, ?_, ?_⟩
    · have : leaked env.cl p .dfaEq = 0 := if_pos (iff_of_false a1 b1)
      rw [this]
      rfl
    · refine ⟨⟨_, _, rfl, .inr ⟨a1, e1.text env.plain c!"DFA", a7 env.plain, by simp⟩, .inr ⟨b1, e2.text env.plain c!"DFA", b7 env.plain, by simp⟩⟩, ?_, fun h => absurd h a1, fun _ => rfl⟩
      rintro ⟨x, y, hx, hy, hx', hy', hs⟩
      exact absurd ⟨x, hx, hx'⟩ a1


/-- The button comparing NFAs. -/
theorem checkNfaEq_run (env : Env) (hcl : Segmentation env.cl) (p : Page) (hf : Fresh p.store) :
    ∃ q, checkNfaEq env p = some q ∧ Fresh q.store ∧ OnlyChanges .nfaEq p q ∧ q.objects = p.objects + leaked env.cl p .nfaEq ∧
      Checked env.cl env.plain .nfa c!"NFA 1" c!"NFA 2" (p.value .nfaEq1) (p.value .nfaEq2) (q.label .nfaEq) q.nfaErrors := by
  rcases load_nfa_cases hcl (p.value .nfaEq1) with ⟨d1, a1, a2, _, a5, a6⟩ | ⟨a1, e1, a7, a2⟩ <;>
  rcases load_nfa_cases hcl (p.value .nfaEq2) with ⟨d2, b1, b2, _, b5, b6⟩ | ⟨b1, e2, b7, b2⟩
  · -- both legal
    have hf1 := fresh_nfa hf d1
    have hf2 := fresh_nfa hf1 d2
    obtain ⟨b, e5, e6⟩ := C20_nfa_equivalent_to d1 d2 a2.1 b2.1
    have hsame : SameTexts env.cl .nfa (p.value .nfaEq1) (p.value .nfaEq2) ↔ b = true := by
      rw [e6]
      constructor
      · rintro ⟨x, y, hx, hy, hx', hy', hs⟩
        obtain ⟨x', rfl, x1, x2⟩ := a5 x hx hx'
        obtain ⟨y', rfl, y1, y2⟩ := b5 y hy hy'
        have hs1 : SameElems x'.alphabet y'.alphabet := hs.1
        rw [x1, y1] at hs1
        exact ⟨hs1, fun w => (x2 w).symm.trans ((hs.2 w).trans (y2 w))⟩
      · rintro ⟨h1, h2⟩
        exact ⟨_, _, rfl, rfl, a1, b1, h1, h2⟩
    have hget1 : Map.get ((p.store.nextKey + 1, d2) :: (p.store.nextKey, d1) :: p.store.nfas) p.store.nextKey = some d1 := by
      rw [Wasm.get_cons, if_neg (by simp), Wasm.get_cons, if_pos rfl]
    have hget2 : Map.get ((p.store.nextKey + 1, d2) :: (p.store.nextKey, d1) :: p.store.nfas) (p.store.nextKey + 1) = some d2 := by
      rw [Wasm.get_cons, if_pos rfl]
    have habs1 : Map.get p.store.nfas p.store.nextKey = none := (hf _ (Nat.le_refl _)).2.1
    have habs2 : Map.get p.store.nfas (p.store.nextKey + 1) = none := (hf _ (Nat.le_succ _)).2.1
    have hrun : checkNfaEq env p = some { p.setLabel .nfaEq (verdictText (.verdict (some b))) with
        store := { p.store with nextKey := p.store.nextKey + 2 }, nfaErrors := [] } := by
      unfold checkNfaEq loadTwo
      simp only [a6 _ hf, loadResult, b6 _ hf1, if_true, Wasm.checkNfaEq, hget1, hget2, e5, Option.bind_eq_bind, Option.bind_some,
        Option.pure_def, Wasm.deleteNfa]
      rw [remove_second (by simp) habs1, remove_head habs2]
    refine ⟨_, hrun, ?_, ⟨fun b' hb' => if_neg hb', fun _ _ _ _ => rfl, fun _ => rfl, fun h => absurd rfl h, fun _ => rfl⟩, ?_, ?_⟩
    · exact fun k hk => hf k (Nat.le_trans (Nat.le_add_right _ 2) hk)
    · have : leaked env.cl p .nfaEq = 0 := if_pos (iff_of_true (legal_nfa a1) (legal_nfa b1))
      rw [this]
      rfl
    · refine ⟨⟨[], [], rfl, .inl ⟨legal_nfa a1, rfl⟩, .inl ⟨legal_nfa b1, rfl⟩⟩, ?_, ?_, fun h => absurd ⟨legal_nfa a1, legal_nfa b1⟩ h⟩
      · intro h
        rw [hsame] at h
        subst h
        rfl
      · intro _ _ h
        rw [hsame] at h
        cases b
        · rfl
        · exact absurd rfl h
  · -- the second is not legal
    have hrun : checkNfaEq env p = some { p.setLabel .nfaEq c!"Fix errors first!" with
        store := { p.store with nfas := (p.store.nextKey, d1) :: p.store.nfas, nextKey := p.store.nextKey + 1 },
        nfaErrors := [] ++ (c!"Error parsing " ++ c!"NFA" ++ c!" 2: " ++ e2.text env.plain c!"NFA" ++ c!"\n") } := by
      unfold checkNfaEq loadTwo
      simp only [a6 _ hf, loadResult, b2]
      rw [if_neg (by simp)]
      rfl
    refine ⟨_, hrun, fresh_nfa hf d1, ⟨fun b' hb' => if_neg hb', fun _ _ _ _ => rfl, fun _ => rfl, fun h => absurd rfl h, fun _ => rfl⟩, ?_, ?_⟩
    · have : leaked env.cl p .nfaEq = 1 := if_neg (fun h => b1 (h.1 (legal_nfa a1)))
      rw [this]
      simp only [Page.objects, List.length_cons, Page.setLabel]
      omega
    · refine ⟨⟨[], _, rfl, .inl ⟨legal_nfa a1, rfl⟩, .inr ⟨b1, e2.text env.plain c!"NFA", b7 env.plain, by simp⟩⟩, ?_, fun _ h => absurd h b1, fun _ => rfl⟩
      rintro ⟨x, y, hx, hy, hx', hy', hs⟩
      exact absurd ⟨y, hy, hy'⟩ b1
  · -- the first is not legal
    have hrun : checkNfaEq env p = some { p.setLabel .nfaEq c!"Fix errors first!" with
        store := { p.store with nfas := (p.store.nextKey, d2) :: p.store.nfas, nextKey := p.store.nextKey + 1 },
        nfaErrors := [] ++ (c!"Error parsing " ++ c!"NFA" ++ c!" 1: " ++ e1.text env.plain c!"NFA" ++ c!"\n") } := by
      unfold checkNfaEq loadTwo
      simp only [a2, loadResult, b6 _ hf]
      rw [if_neg (by simp)]
      rfl
    refine ⟨_, hrun, fresh_nfa hf d2, ⟨fun b' hb' => if_neg hb', fun _ _ _ _ => rfl, fun _ => rfl, fun h => absurd rfl h, fun _ => rfl⟩, ?_, ?_⟩
    · have : leaked env.cl p .nfaEq = 1 := if_neg (fun h => a1 (h.2 (legal_nfa b1)))
      rw [this]
      simp only [Page.objects, List.length_cons, Page.setLabel]
      omega
    · refine ⟨⟨_, [], (List.append_nil _).symm, .inr ⟨a1, e1.text env.plain c!"NFA", a7 env.plain, by simp⟩, .inl ⟨legal_nfa b1, rfl⟩⟩, ?_, fun h => absurd h a1, fun _ => rfl⟩
      rintro ⟨x, y, hx, hy, hx', hy', hs⟩
      exact absurd ⟨x, hx, hx'⟩ a1
  · -- none is legal
    have hrun : checkNfaEq env p = some { p.setLabel .nfaEq c!"Fix errors first!" with
        nfaErrors := [] ++ (c!"Error parsing " ++ c!"NFA" ++ c!" 1: " ++ e1.text env.plain c!"NFA" ++ c!"\n") ++
          (c!"Error parsing " ++ c!"NFA" ++ c!" 2: " ++ e2.text env.plain c!"NFA" ++ c!"\n") } := by
      unfold checkNfaEq loadTwo
      simp only [a2, loadResult, b2]
      rw [if_neg (by simp)]
      rfl
    refine ⟨_, hrun, hf, ⟨fun b' hb' => if_neg hb', fun _ _ _ _ => rfl, fun _ => rfl, fun h => absurd rfl h, fun _ => rfl⟩, ?_, ?_⟩
    · have : leaked env.cl p .nfaEq = 0 := if_pos (iff_of_false a1 b1)
      rw [this]
      rfl
    · refine ⟨⟨_, _, rfl, .inr ⟨a1, e1.text env.plain c!"NFA", a7 env.plain, by simp⟩, .inr ⟨b1, e2.text env.plain c!"NFA", b7 env.plain, by simp⟩⟩, ?_, fun h => absurd h a1, fun _ => rfl⟩
      rintro ⟨x, y, hx, hy, hx', hy', hs⟩
      exact absurd ⟨x, hx, hx'⟩ a1

theorem fresh_next {s : Store} (h : Fresh s) (j : Nat) : Fresh { s with nextKey := s.nextKey + j } :=
  fun k hk => h k (Nat.le_trans (Nat.le_add_right _ j) hk)

/-- The button converting an NFA. -/
theorem nfaToDfa_run (env : Env) (hcl : Segmentation env.cl) (p : Page) (hf : Fresh p.store) :
    ∃ q, nfaToDfa env p = some q ∧ Fresh q.store ∧ OnlyChanges .nfaToDfa p q ∧ q.label .nfaToDfa = p.label .nfaToDfa ∧
      q.objects = p.objects ∧
      (∀ n, IsTextOf env.cl (p.value .nfaToDfa) (.nfa n) → n.alphabet ≠ [] →
        ∃ d, IsTextOf env.cl (q.value .nfaToDfaOut) (.dfa d) ∧ d.alphabet = n.alphabet ∧ ∀ w, d.Lang w ↔ n.Lang w) ∧
      (¬ Legal env.cl .nfa (p.value .nfaToDfa) → ∃ m, Tells env.cl env.plain .nfa (p.value .nfaToDfa) m ∧ q.value .nfaToDfaOut = normalize m) := by
  rcases load_nfa_cases hcl (p.value .nfaToDfa) with ⟨n, a1, a2, a4, a5, a6⟩ | ⟨a1, e, a7, a2⟩
  · have hf1 := fresh_nfa hf n
    obtain ⟨d, h1, h2, h3, h4, _⟩ := C19_to_dfa n a2.1
    have hg : DGood Name (fun _ => True) d := toDfa_good name_closed a2 h1
    have habsN : Map.get p.store.nfas p.store.nextKey = none := (hf _ (Nat.le_refl _)).2.1
    have habsD : Map.get p.store.dfas (p.store.nextKey + 1) = none := (hf _ (Nat.le_succ _)).1
    obtain ⟨⟨t, ht, _⟩, _⟩ := C59_dfa_aligned d h2
    have hrun : nfaToDfa env p = some { p.setValue .nfaToDfaOut (replaceFirst t) with
        store := { p.store with nextKey := p.store.nextKey + 2 } } := by
      unfold nfaToDfa
      simp only [a6 _ hf, loadResult, Wasm.nfaToDfa, Wasm.get_cons, if_true, h1, Option.bind_eq_bind, Option.bind_some, Option.pure_def,
        Wasm.pushDfa, Wasm.genKey, insert_absent habsD, keyOf, Wasm.dfaToTable, ht, tableOf, Wasm.deleteNfa, Wasm.deleteDfa]
      rw [remove_head habsN, remove_head habsD]
    refine ⟨_, hrun, fresh_next hf 2, ⟨fun _ _ => rfl, fun a ha _ _ => if_neg (ha rfl), fun _ => rfl, fun _ => rfl, fun _ => rfl⟩, rfl, rfl, ?_,
      fun h => absurd (legal_nfa a1) h⟩
    intro n' hn' hne
    obtain ⟨_, e1, e2, e3⟩ := a5 _ rfl hn'
    cases e1
    have hal : ∀ e ∈ d.alphabet, Name e := by rw [h3]; exact a4
    obtain ⟨⟨t', pd, g1, g2, g3⟩, _⟩ := C40_roundtrip d h2 (by rw [h3, ← e2]; exact hne) hal hg.2.1
    rw [ht] at g1
    cases g1
    refine ⟨d, ?_, h3.trans e2.symm, fun w => (h4 w).trans (e3 w).symm⟩
    show IsTextOf env.cl (normalize (replaceFirst t)) _
    rw [normalize_replaceFirst (dfa_table_cr ht (fun e he => name_cr (hal e he)) (fun s hs => name_cr (hg.2.1 s hs)))]
    exact (C61_load_content env.cl hcl t .dfa (.dfa d) (Cli.Automata.load_dfa_iff.2 ⟨pd, d, g2, g3, rfl⟩)).2.2.1
  · have hrun : nfaToDfa env p = some { p.setValue .nfaToDfaOut (e.text env.plain c!"NFA") with store := p.store } := by
      unfold nfaToDfa
      simp only [a2, loadResult]
    refine ⟨_, hrun, hf, ⟨fun _ _ => rfl, fun a ha _ _ => if_neg (ha rfl), fun _ => rfl, fun _ => rfl, fun _ => rfl⟩, rfl, rfl, ?_,
      fun _ => ⟨_, a7 env.plain, rfl⟩⟩
    intro n hn
    exact absurd (legal_nfa hn) a1

/-- The button minimizing a DFA. -/
theorem minimizeDfa_run (env : Env) (hcl : Segmentation env.cl) (o : Orders) (ho : o.Valid) (p : Page) (hf : Fresh p.store) :
    ∃ q, minimizeDfa env o p = some q ∧ Fresh q.store ∧ OnlyChanges .minimize p q ∧
      q.objects = p.objects + leaked env.cl p .minimize ∧
      (∀ d, IsTextOf env.cl (p.value .minimize) (.dfa d) → q.label .minimize = c!"Minimize!" ∧
        ∃ m, IsTextOf env.cl (q.value .minimizeOut) (.dfa m) ∧ Cli.Minimal m ∧ m.alphabet = d.alphabet ∧ ∀ w, m.Lang w ↔ d.Lang w) ∧
      (¬ Legal env.cl .dfa (p.value .minimize) → q.value .minimizeOut = p.value .minimizeOut ∧
        Tells env.cl env.plain .dfa (p.value .minimize) (q.label .minimize)) := by
  rcases load_dfa_cases hcl (p.value .minimize) with ⟨d, a1, a2, a3, a4, a5, a6⟩ | ⟨a1, e, a7, a2⟩
  · obtain ⟨m, h1, h2, h3, h4, h5⟩ := ho.min.minimize a2.1
    have hg : DGood Name (fun _ => True) m := minimize_good ho.min.u ho.min.m ho.min.k a2 h1
    have habs : Map.get p.store.dfas p.store.nextKey = none := (hf _ (Nat.le_refl _)).1
    have hal : ∀ e ∈ m.alphabet, Name e := by rw [h3]; exact a4
    obtain ⟨⟨t, pd, g1, g2, g3⟩, _⟩ := C40_roundtrip m h2 (by rw [h3]; exact a3) hal hg.2.1
    have hput : Map.put ((p.store.nextKey, d) :: p.store.dfas) p.store.nextKey m = (p.store.nextKey, m) :: p.store.dfas :=
      put_head habs d m
    have hrun : minimizeDfa env o p = some { (p.setLabel .minimize c!"Minimize!").setValue .minimizeOut (replaceFirst t) with
        store := { p.store with dfas := (p.store.nextKey, m) :: p.store.dfas, nextKey := p.store.nextKey + 1 } } := by
      unfold minimizeDfa
      simp only [a6 _ hf, loadResult, Wasm.minimizeDfa, Wasm.get_cons, if_true, h1, Option.bind_eq_bind, Option.bind_some, Option.pure_def,
        hput, Wasm.dfaToTable, g1, tableOf]
    refine ⟨_, hrun, fresh_dfa hf m, ⟨fun b hb => if_neg hb, fun a _ ha _ => if_neg (ha rfl), fun _ => rfl, fun _ => rfl, fun _ => rfl⟩, ?_, ?_,
      fun h => absurd (legal_dfa a1) h⟩
    · have : leaked env.cl p .minimize = 1 := if_pos (legal_dfa a1)
      rw [this]
      simp only [Page.objects, List.length_cons, Page.setValue, Page.setLabel]
      omega
    · intro d' hd'
      obtain ⟨_, e1, e2, e3⟩ := a5 _ rfl hd'
      cases e1
      refine ⟨rfl, m, ?_, h5, h3.trans e2.symm, fun w => (h4 w).trans (e3 w).symm⟩
      show IsTextOf env.cl (normalize (replaceFirst t)) _
      rw [normalize_replaceFirst (dfa_table_cr g1 (fun e he => name_cr (hal e he)) (fun s hs => name_cr (hg.2.1 s hs)))]
      exact (C61_load_content env.cl hcl t .dfa (.dfa m) (Cli.Automata.load_dfa_iff.2 ⟨pd, m, g2, g3, rfl⟩)).2.2.1
  · have hrun : minimizeDfa env o p = some { p.setLabel .minimize (e.text env.plain c!"DFA") with store := p.store } := by
      unfold minimizeDfa
      simp only [a2, loadResult]
    refine ⟨_, hrun, hf, ⟨fun b hb => if_neg hb, fun a _ _ _ => rfl, fun _ => rfl, fun _ => rfl, fun _ => rfl⟩, ?_, ?_,
      fun _ => ⟨rfl, a7 env.plain⟩⟩
    · have : leaked env.cl p .minimize = 0 := if_neg a1
      rw [this]
      rfl
    · intro d hd
      exact absurd (legal_dfa hd) a1

/-- The button converting an expression. -/
theorem regexToNfa_run (env : Env) (hcl : Segmentation env.cl) (p : Page) (hf : Fresh p.store) :
    ∃ q, regexToNfa env p = some q ∧ Fresh q.store ∧ OnlyChanges .regexToNfa p q ∧
      q.objects = p.objects + leaked env.cl p .regexToNfa ∧
      (∀ r, IsTextOf env.cl (p.value .regex) (.regex r) → q.label .regexToNfa = c!"Convert!" ∧ ((∀ e ∈ r.graphemes, Name e) →
        ∃ n, IsTextOf env.cl (q.value .regexOut) (.nfa n) ∧ (Automata.regex r).HasAlphabet n.alphabet ∧ ∀ w, n.Lang w ↔ Matches r w)) ∧
      (¬ Legal env.cl .regex (p.value .regex) → q.value .regexOut = p.value .regexOut ∧
        Tells env.cl env.plain .regex (p.value .regex) (q.label .regexToNfa)) := by
  rcases load_regex_cases env hcl (p.value .regex) with ⟨r, a1, a5, a6⟩ | ⟨a1, e, a7, a2⟩
  · have habsR : Map.get p.store.regexes p.store.nextKey = none := (hf _ (Nat.le_refl _)).2.2
    have habsN : Map.get p.store.nfas (p.store.nextKey + 1) = none := (hf _ (Nat.le_succ _)).2.1
    obtain ⟨⟨t, ht, _⟩, _⟩ := C59_nfa_aligned r.toNfa (C35_to_nfa_valid r)
    have hrun : regexToNfa env p = some { (p.setLabel .regexToNfa c!"Convert!").setValue .regexOut (replaceFirst t) with
        store := { p.store with nfas := (p.store.nextKey + 1, r.toNfa) :: p.store.nfas, nextKey := p.store.nextKey + 2 } } := by
      unfold regexToNfa
      simp only [a6 _ hf, loadResult, Wasm.regexToNfa, Wasm.get_cons, if_true, Option.bind_eq_bind, Option.bind_some, Option.pure_def,
        Wasm.pushNfa, Wasm.genKey, insert_absent habsN, keyOf, Wasm.nfaToTable, ht, tableOf, remove_head habsR]
    refine ⟨_, hrun, ?_, ⟨fun b hb => if_neg hb, fun a _ _ ha => if_neg (ha rfl), fun _ => rfl, fun _ => rfl, fun _ => rfl⟩, ?_, ?_,
      fun h => absurd ⟨_, rfl, a1⟩ h⟩
    · exact fresh_nfa (s := { p.store with nextKey := p.store.nextKey + 1 }) (fresh_next hf 1) r.toNfa
    · have : leaked env.cl p .regexToNfa = 1 := if_pos ⟨_, rfl, a1⟩
      rw [this]
      simp only [Page.objects, List.length_cons, Page.setValue, Page.setLabel]
      omega
    · intro r' hr'
      obtain ⟨_, e1, e2, e3⟩ := a5 _ rfl hr'
      cases e1
      refine ⟨rfl, ?_⟩
      intro hnames
      have hA := C35_to_nfa_alphabet r
      have hhas : (Automata.regex r).HasAlphabet r.toNfa.alphabet := ⟨hA.2.1, hA.1, hA.2.2⟩
      have hhas' := (e2 _).2 hhas
      have hal : ∀ e ∈ r.toNfa.alphabet, Name e := fun e he => hnames e ((hhas'.2.1 e).1 he)
      have hnm : ∀ s ∈ r.toNfa.states, Name s.name := by
        intro st hs
        obtain ⟨i, hi⟩ := List.mem_iff_getElem?.1 hs
        rw [((C35_to_nfa_states r).2.2 i st hi).1]
        exact name_num i
      obtain ⟨⟨t', pn, g1, g2, g3⟩, _⟩ := C41_roundtrip r.toNfa (C35_to_nfa_valid r) hal hnm
      rw [ht] at g1
      cases g1
      refine ⟨r.toNfa, ?_, hhas', fun w => (Cli.Automata.regex_lang r w).trans (e3 w).symm⟩
      show IsTextOf env.cl (normalize (replaceFirst t)) _
      rw [normalize_replaceFirst (nfa_table_cr ht (fun e he => name_cr (hal e he)) (fun s hs => name_cr (hnm s hs)))]
      exact (C61_load_content env.cl hcl t .nfa (.nfa r.toNfa) (Cli.Automata.load_nfa_iff.2 ⟨pn, _, g2, g3, rfl⟩)).2.2.1
  · have hrun : regexToNfa env p = some { p.setLabel .regexToNfa (e.text env.plain c!"Regex") with store := p.store } := by
      unfold regexToNfa
      simp only [a2, loadResult]
    refine ⟨_, hrun, hf, ⟨fun b hb => if_neg hb, fun a _ _ _ => rfl, fun _ => rfl, fun _ => rfl, fun _ => rfl⟩, ?_, ?_,
      fun _ => ⟨rfl, a7 env.plain⟩⟩
    · have : leaked env.cl p .regexToNfa = 0 := if_neg a1
      rw [this]
      rfl
    · intro r hr
      exact absurd ⟨_, rfl, hr⟩ a1

/-- The button drawing an NFA. -/
theorem visualizeNfa_run (env : Env) (hcl : Segmentation env.cl) (o : Orders) (ho : o.Valid) (p : Page) (hf : Fresh p.store) :
    ∃ q, visualizeNfa env o p = some q ∧ Fresh q.store ∧ OnlyChanges .visualize p q ∧
      q.objects = p.objects + leaked env.cl p .visualize ∧
      (Legal env.cl .nfa (p.value .visualize) → q.label .visualize = c!"Visualize!" ∧
        ∃ n ops ps again it, IsTextOf env.cl (p.value .visualize) (.nfa n) ∧ n.WF ∧ Draw.drawNfa Draw.Options.default o.draw n = some ops ∧
          q.canvas.painted = p.canvas.painted ++ ps ++ [again] ∧ List.Forall₂ Draw.Canvas.Visible ps (Draw.items (0, 0, 0) ops) ∧
          ((Draw.items (0, 0, 0) ops).filter Draw.Item.isOutline).getLast? = some it ∧
          Draw.Canvas.Visible again (it.recolor Draw.Options.default.textColor)) ∧
      (¬ Legal env.cl .nfa (p.value .visualize) → q.canvas = p.canvas ∧ Tells env.cl env.plain .nfa (p.value .visualize) (q.label .visualize)) := by
  rcases load_nfa_cases hcl (p.value .visualize) with ⟨n, a1, a2, a4, a5, a6⟩ | ⟨a1, e, a7, a2⟩
  · obtain ⟨ops, ctx, ps, again, it, h1, h2, h3, h4, h5, h6⟩ :=
      (C68_canvas_partial Draw.Options.default default_drawable o.draw ho.draw p.canvas (0, 0, 0)).2 n a2.1
    have hrun : visualizeNfa env o p = some { p.setLabel .visualize c!"Visualize!" with
        store := { p.store with nfas := (p.store.nextKey, n) :: p.store.nfas, nextKey := p.store.nextKey + 1 }, canvas := ctx } := by
      unfold visualizeNfa
      simp only [a6 _ hf, loadResult, Wasm.drawNfa, Wasm.get_cons, if_true, Env.wasm, beq_self_eq_true, paint, h1, Option.bind_eq_bind,
        Option.bind_some, Option.pure_def]
      rw [show (p.setLabel .visualize c!"Visualize!").canvas = p.canvas from rfl, h2]
      rfl
    refine ⟨_, hrun, fresh_nfa hf n, ⟨fun b hb => if_neg hb, fun _ _ _ _ => rfl, fun _ => rfl, fun _ => rfl, fun h => absurd rfl h⟩, ?_,
      fun _ => ⟨rfl, n, ops, ps, again, it, a1, a2.1, h1, h3, h4, h5, h6⟩, fun h => absurd (legal_nfa a1) h⟩
    have : leaked env.cl p .visualize = 1 := if_pos (legal_nfa a1)
    rw [this]
    simp only [Page.objects, List.length_cons, Page.setLabel]
    omega
  · have hrun : visualizeNfa env o p = some { p.setLabel .visualize (e.text env.plain c!"NFA") with store := p.store } := by
      unfold visualizeNfa
      simp only [a2, loadResult]
    refine ⟨_, hrun, hf, ⟨fun b hb => if_neg hb, fun _ _ _ _ => rfl, fun _ => rfl, fun _ => rfl, fun _ => rfl⟩, ?_, fun h => absurd h a1,
      fun _ => ⟨rfl, a7 env.plain⟩⟩
    have : leaked env.cl p .visualize = 0 := if_neg a1
    rw [this]
    rfl

/-- What every click does. -/
theorem click_run (env : Env) (hcl : Segmentation env.cl) (o : Orders) (ho : o.Valid) (p : Page) (hf : Fresh p.store) (b : Button) :
    ∃ q, click env o p b = some q ∧ Fresh q.store ∧ OnlyChanges b p q ∧ q.objects = p.objects + leaked env.cl p b := by
  cases b with
  | dfaEq => obtain ⟨q, h1, h2, h3, h4, _⟩ := checkDfaEq_run env hcl p hf; exact ⟨q, h1, h2, h3, h4⟩
  | nfaEq => obtain ⟨q, h1, h2, h3, h4, _⟩ := checkNfaEq_run env hcl p hf; exact ⟨q, h1, h2, h3, h4⟩
  | nfaToDfa => obtain ⟨q, h1, h2, h3, _, h4, _⟩ := nfaToDfa_run env hcl p hf; exact ⟨q, h1, h2, h3, h4⟩
  | minimize => obtain ⟨q, h1, h2, h3, h4, _⟩ := minimizeDfa_run env hcl o ho p hf; exact ⟨q, h1, h2, h3, h4⟩
  | regexToNfa => obtain ⟨q, h1, h2, h3, h4, _⟩ := regexToNfa_run env hcl p hf; exact ⟨q, h1, h2, h3, h4⟩
  | visualize => obtain ⟨q, h1, h2, h3, h4, _⟩ := visualizeNfa_run env hcl o ho p hf; exact ⟨q, h1, h2, h3, h4⟩

theorem fresh_init : Fresh .init := fun _ _ => ⟨rfl, rfl, rfl⟩

/-- After every history there is a page, and its unused keys are unused. -/
theorem history_total (env : Env) (hcl : Segmentation env.cl) (es : List Event) (hes : ∀ e ∈ es, e.Valid) :
    ∃ p, history env es = some p ∧ Fresh p.store := by
  induction es with
  | nil => exact ⟨_, rfl, fresh_init⟩
  | cons e es ih =>
    obtain ⟨p, h1, h2⟩ := ih (fun x hx => hes x (List.mem_cons_of_mem _ hx))
    rw [history, h1]
    cases e with
    | edit a t =>
      refine ⟨_, rfl, ?_⟩
      split
      · exact h2
      · exact h2
    | click b o =>
      obtain ⟨q, h3, h4, _⟩ := click_run env hcl o (hes _ List.mem_cons_self) p h2 b
      exact ⟨q, h3, h4⟩

theorem history_fresh {env : Env} (hcl : Segmentation env.cl) {es : List Event} (hes : ∀ e ∈ es, e.Valid) {p : Page}
    (h : history env es = some p) : Fresh p.store := by
  obtain ⟨p', h1, h2⟩ := history_total env hcl es hes
  rw [h] at h1
  cases h1
  exact h2

/-! ## values of text areas -/

theorem normalize_cr (t : Str) : '\r' ∉ normalize t := by
  fun_induction normalize t with
  | case1 => simp
  | case2 t ih => simp [ih]
  | case3 t h ih => simp [ih]
  | case4 c t h1 h2 ih =>
    rw [List.mem_cons, not_or]
    exact ⟨fun e => h2 e.symm, ih⟩

theorem cr_setValue {p : Page} (h : ∀ a, '\r' ∉ p.value a) (b : Area) (t : Str) (a : Area) : '\r' ∉ (p.setValue b t).value a := by
  unfold Page.setValue
  dsimp only
  split
  · exact normalize_cr t
  · exact h a

theorem click_cr {env : Env} {o : Orders} {p q : Page} {b : Button} (h : click env o p b = some q) (hp : ∀ a, '\r' ∉ p.value a) (a : Area) :
    '\r' ∉ q.value a := by
  cases b with
  | dfaEq =>
    unfold click checkDfaEq at h
    simp only [Option.bind_eq_bind, Option.pure_def] at h
    split at h
    · cases hc : Wasm.checkDfaEq (loadTwo env Wasm.loadDfa c!"DFA" p.store (p.value .dfaEq1) (p.value .dfaEq2)).1
        (loadTwo env Wasm.loadDfa c!"DFA" p.store (p.value .dfaEq1) (p.value .dfaEq2)).2.1
        (loadTwo env Wasm.loadDfa c!"DFA" p.store (p.value .dfaEq1) (p.value .dfaEq2)).2.2.1 with
      | none => rw [hc] at h; cases h
      | some r => rw [hc] at h; cases h; exact hp a
    · cases h; exact hp a
  | nfaEq =>
    unfold click checkNfaEq at h
    simp only [Option.bind_eq_bind, Option.pure_def] at h
    split at h
    · cases hc : Wasm.checkNfaEq (loadTwo env Wasm.loadNfa c!"NFA" p.store (p.value .nfaEq1) (p.value .nfaEq2)).1
        (loadTwo env Wasm.loadNfa c!"NFA" p.store (p.value .nfaEq1) (p.value .nfaEq2)).2.1
        (loadTwo env Wasm.loadNfa c!"NFA" p.store (p.value .nfaEq1) (p.value .nfaEq2)).2.2.1 with
      | none => rw [hc] at h; cases h
      | some r => rw [hc] at h; cases h; exact hp a
    · cases h; exact hp a
  | nfaToDfa =>
    unfold click nfaToDfa at h
    dsimp only at h
    split at h
    · cases h; exact cr_setValue hp _ _ a
    · simp only [Option.bind_eq_bind, Option.pure_def, Option.bind_eq_some_iff, Option.some.injEq] at h
      obtain ⟨_, _, _, _, _, _, _, _, rfl⟩ := h
      exact cr_setValue hp _ _ a
  | minimize =>
    unfold click minimizeDfa at h
    dsimp only at h
    split at h
    · cases h; exact hp a
    · simp only [Option.bind_eq_bind, Option.pure_def, Option.bind_eq_some_iff, Option.some.injEq] at h
      obtain ⟨_, _, _, _, _, _, rfl⟩ := h
      exact cr_setValue (p := p.setLabel _ _) hp _ _ a
  | regexToNfa =>
    unfold click regexToNfa at h
    dsimp only at h
    split at h
    · cases h; exact hp a
    · simp only [Option.bind_eq_bind, Option.pure_def, Option.bind_eq_some_iff, Option.some.injEq] at h
      obtain ⟨_, _, _, _, _, _, rfl⟩ := h
      exact cr_setValue (p := p.setLabel _ _) hp _ _ a
  | visualize =>
    unfold click visualizeNfa at h
    dsimp only at h
    split at h
    · cases h; exact hp a
    · simp only [Option.bind_eq_bind, Option.pure_def, Option.bind_eq_some_iff, Option.some.injEq] at h
      obtain ⟨_, _, rfl⟩ := h
      exact hp a

theorem start_cr (a : Area) : '\r' ∉ start.value a := by
  cases a <;> decide +kernel

/-- The values of text areas never contain carriage returns. -/
theorem history_cr {env : Env} (hcl : Segmentation env.cl) {es : List Event} (hes : ∀ e ∈ es, e.Valid) {p : Page}
    (h : history env es = some p) (a : Area) : '\r' ∉ p.value a := by
  induction es generalizing p a with
  | nil => cases h; exact start_cr a
  | cons e es ih =>
    have hes' : ∀ e ∈ es, e.Valid := fun x hx => hes x (List.mem_cons_of_mem _ hx)
    obtain ⟨p0, h1, _⟩ := history_total env hcl es hes'
    rw [history, h1] at h
    cases e with
    | edit b t =>
      cases h
      split
      · exact ih hes' h1 a
      · exact cr_setValue (fun a => ih hes' h1 a) _ _ a
    | click b o => exact click_cr h (fun a => ih hes' h1 a) a

/-! ## independence of the history -/

/-- What the button comparing DFAs shows depends on the texts. -/
theorem checkDfaEq_det (env : Env) (hcl : Segmentation env.cl) (t u : Str) :
    ∃ label errors, ∀ p : Page, Fresh p.store → p.value .dfaEq1 = t → p.value .dfaEq2 = u →
      ∃ q, checkDfaEq env p = some q ∧ q.label .dfaEq = label ∧ q.dfaErrors = errors := by
  rcases load_dfa_cases hcl t with ⟨d1, a1, a2, _, _, a5, a6⟩ | ⟨a1, e1, a7, a2⟩ <;>
  rcases load_dfa_cases hcl u with ⟨d2, b1, b2, _, _, b5, b6⟩ | ⟨b1, e2, b7, b2⟩
  · obtain ⟨⟨b, e5⟩, _⟩ := C11_dfa_equivalent_to d1 d2 a2.1 b2.1
    refine ⟨verdictText (.verdict (some b)), [], ?_⟩
    rintro p hf rfl rfl
    have hf1 := fresh_dfa hf d1
    have hget1 : Map.get ((p.store.nextKey + 1, d2) :: (p.store.nextKey, d1) :: p.store.dfas) p.store.nextKey = some d1 := by
      rw [Wasm.get_cons, if_neg (by simp), Wasm.get_cons, if_pos rfl]
    have hget2 : Map.get ((p.store.nextKey + 1, d2) :: (p.store.nextKey, d1) :: p.store.dfas) (p.store.nextKey + 1) = some d2 := by
      rw [Wasm.get_cons, if_pos rfl]
    unfold checkDfaEq loadTwo
    simp only [a6 _ hf, loadResult, b6 _ hf1, if_true, Wasm.checkDfaEq, hget1, hget2, e5, Option.bind_eq_bind, Option.bind_some,
      Option.pure_def, Wasm.deleteDfa]
    exact ⟨_, rfl, rfl, rfl⟩
  · refine ⟨c!"Fix errors first!", [] ++ (c!"Error parsing " ++ c!"DFA" ++ c!" 2: " ++ e2.text env.plain c!"DFA" ++ c!"\n"), ?_⟩
    rintro p hf rfl rfl
    unfold checkDfaEq loadTwo
    simp only [a6 _ hf, loadResult, b2]
    rw [if_neg (by simp)]
    exact ⟨_, rfl, rfl, rfl⟩
  · refine ⟨c!"Fix errors first!", [] ++ (c!"Error parsing " ++ c!"DFA" ++ c!" 1: " ++ e1.text env.plain c!"DFA" ++ c!"\n"), ?_⟩
    rintro p hf rfl rfl
    unfold checkDfaEq loadTwo
    simp only [a2, loadResult, b6 _ hf]
    rw [if_neg (by simp)]
    exact ⟨_, rfl, rfl, rfl⟩
  · refine ⟨c!"Fix errors first!", [] ++ (c!"Error parsing " ++ c!"DFA" ++ c!" 1: " ++ e1.text env.plain c!"DFA" ++ c!"\n") ++
      (c!"Error parsing " ++ c!"DFA" ++ c!" 2: " ++ e2.text env.plain c!"DFA" ++ c!"\n"), ?_⟩
    rintro p hf rfl rfl
    unfold checkDfaEq loadTwo
    simp only [a2, loadResult, b2]
    rw [if_neg (by simp)]
    exact ⟨_, rfl, rfl, rfl⟩

/-- What the button comparing NFAs shows depends on the texts. -/
theorem checkNfaEq_det (env : Env) (hcl : Segmentation env.cl) (t u : Str) :
    ∃ label errors, ∀ p : Page, Fresh p.store → p.value .nfaEq1 = t → p.value .nfaEq2 = u →
      ∃ q, checkNfaEq env p = some q ∧ q.label .nfaEq = label ∧ q.nfaErrors = errors := by
  rcases load_nfa_cases hcl t with ⟨d1, a1, a2, _, a5, a6⟩ | ⟨a1, e1, a7, a2⟩ <;>
  rcases load_nfa_cases hcl u with ⟨d2, b1, b2, _, b5, b6⟩ | ⟨b1, e2, b7, b2⟩
  · obtain ⟨b, e5, _⟩ := C20_nfa_equivalent_to d1 d2 a2.1 b2.1
    refine ⟨verdictText (.verdict (some b)), [], ?_⟩
    rintro p hf rfl rfl
    have hf1 := fresh_nfa hf d1
    have hget1 : Map.get ((p.store.nextKey + 1, d2) :: (p.store.nextKey, d1) :: p.store.nfas) p.store.nextKey = some d1 := by
      rw [Wasm.get_cons, if_neg (by simp), Wasm.get_cons, if_pos rfl]
    have hget2 : Map.get ((p.store.nextKey + 1, d2) :: (p.store.nextKey, d1) :: p.store.nfas) (p.store.nextKey + 1) = some d2 := by
      rw [Wasm.get_cons, if_pos rfl]
    unfold checkNfaEq loadTwo
    simp only [a6 _ hf, loadResult, b6 _ hf1, if_true, Wasm.checkNfaEq, hget1, hget2, e5, Option.bind_eq_bind, Option.bind_some,
      Option.pure_def, Wasm.deleteNfa]
    exact ⟨_, rfl, rfl, rfl⟩
  · refine ⟨c!"Fix errors first!", [] ++ (c!"Error parsing " ++ c!"NFA" ++ c!" 2: " ++ e2.text env.plain c!"NFA" ++ c!"\n"), ?_⟩
    rintro p hf rfl rfl
    unfold checkNfaEq loadTwo
    simp only [a6 _ hf, loadResult, b2]
    rw [if_neg (by simp)]
    exact ⟨_, rfl, rfl, rfl⟩
  · refine ⟨c!"Fix errors first!", [] ++ (c!"Error parsing " ++ c!"NFA" ++ c!" 1: " ++ e1.text env.plain c!"NFA" ++ c!"\n"), ?_⟩
    rintro p hf rfl rfl
    unfold checkNfaEq loadTwo
    simp only [a2, loadResult, b6 _ hf]
    rw [if_neg (by simp)]
    exact ⟨_, rfl, rfl, rfl⟩
  · refine ⟨c!"Fix errors first!", [] ++ (c!"Error parsing " ++ c!"NFA" ++ c!" 1: " ++ e1.text env.plain c!"NFA" ++ c!"\n") ++
      (c!"Error parsing " ++ c!"NFA" ++ c!" 2: " ++ e2.text env.plain c!"NFA" ++ c!"\n"), ?_⟩
    rintro p hf rfl rfl
    unfold checkNfaEq loadTwo
    simp only [a2, loadResult, b2]
    rw [if_neg (by simp)]
    exact ⟨_, rfl, rfl, rfl⟩

/-- What converting an NFA shows depends on the text. -/
theorem nfaToDfa_det (env : Env) (hcl : Segmentation env.cl) (t : Str) :
    ∃ out, ∀ p : Page, Fresh p.store → p.value .nfaToDfa = t → ∃ q, nfaToDfa env p = some q ∧ q.value .nfaToDfaOut = out := by
  rcases load_nfa_cases hcl t with ⟨n, a1, a2, a4, a5, a6⟩ | ⟨a1, e, a7, a2⟩
  · obtain ⟨d, h1, h2, h3, h4, _⟩ := C19_to_dfa n a2.1
    obtain ⟨⟨u, ht, _⟩, _⟩ := C59_dfa_aligned d h2
    refine ⟨normalize (replaceFirst u), ?_⟩
    rintro p hf rfl
    have habsD : Map.get p.store.dfas (p.store.nextKey + 1) = none := (hf _ (Nat.le_succ _)).1
    unfold nfaToDfa
    simp only [a6 _ hf, loadResult, Wasm.nfaToDfa, Wasm.get_cons, if_true, h1, Option.bind_eq_bind, Option.bind_some, Option.pure_def,
      Wasm.pushDfa, Wasm.genKey, insert_absent habsD, keyOf, Wasm.dfaToTable, ht, tableOf, Wasm.deleteNfa, Wasm.deleteDfa]
    exact ⟨_, rfl, rfl⟩
  · refine ⟨normalize (e.text env.plain c!"NFA"), ?_⟩
    rintro p hf rfl
    unfold nfaToDfa
    simp only [a2, loadResult]
    exact ⟨_, rfl, rfl⟩

/-- What minimizing a DFA shows depends on the text and the orders. -/
theorem minimizeDfa_det (env : Env) (hcl : Segmentation env.cl) (o : Orders) (ho : o.Valid) (t : Str) :
    ∃ label out, ∀ p : Page, Fresh p.store → p.value .minimize = t → ∃ q, minimizeDfa env o p = some q ∧ q.label .minimize = label ∧
      (Legal env.cl .dfa t → q.value .minimizeOut = out) := by
  rcases load_dfa_cases hcl t with ⟨d, a1, a2, a3, a4, a5, a6⟩ | ⟨a1, e, a7, a2⟩
  · obtain ⟨m, h1, h2, h3, h4, h5⟩ := ho.min.minimize a2.1
    obtain ⟨⟨u, ht, _⟩, _⟩ := C59_dfa_aligned m h2
    refine ⟨c!"Minimize!", normalize (replaceFirst u), ?_⟩
    rintro p hf rfl
    have habs : Map.get p.store.dfas p.store.nextKey = none := (hf _ (Nat.le_refl _)).1
    have hput : Map.put ((p.store.nextKey, d) :: p.store.dfas) p.store.nextKey m = (p.store.nextKey, m) :: p.store.dfas :=
      put_head habs d m
    unfold minimizeDfa
    simp only [a6 _ hf, loadResult, Wasm.minimizeDfa, Wasm.get_cons, if_true, h1, Option.bind_eq_bind, Option.bind_some, Option.pure_def,
      hput, Wasm.dfaToTable, ht, tableOf]
    exact ⟨_, rfl, rfl, fun _ => rfl⟩
  · refine ⟨e.text env.plain c!"DFA", [], ?_⟩
    rintro p hf rfl
    unfold minimizeDfa
    simp only [a2, loadResult]
    exact ⟨_, rfl, rfl, fun h => absurd h a1⟩

/-- What converting an expression shows depends on the text. -/
theorem regexToNfa_det (env : Env) (hcl : Segmentation env.cl) (t : Str) :
    ∃ label out, ∀ p : Page, Fresh p.store → p.value .regex = t → ∃ q, regexToNfa env p = some q ∧ q.label .regexToNfa = label ∧
      (Legal env.cl .regex t → q.value .regexOut = out) := by
  rcases load_regex_cases env hcl t with ⟨r, a1, a5, a6⟩ | ⟨a1, e, a7, a2⟩
  · obtain ⟨⟨u, ht, _⟩, _⟩ := C59_nfa_aligned r.toNfa (C35_to_nfa_valid r)
    refine ⟨c!"Convert!", normalize (replaceFirst u), ?_⟩
    rintro p hf rfl
    have habsR : Map.get p.store.regexes p.store.nextKey = none := (hf _ (Nat.le_refl _)).2.2
    have habsN : Map.get p.store.nfas (p.store.nextKey + 1) = none := (hf _ (Nat.le_succ _)).2.1
    unfold regexToNfa
    simp only [a6 _ hf, loadResult, Wasm.regexToNfa, Wasm.get_cons, if_true, Option.bind_eq_bind, Option.bind_some, Option.pure_def,
      Wasm.pushNfa, Wasm.genKey, insert_absent habsN, keyOf, Wasm.nfaToTable, ht, tableOf, remove_head habsR]
    exact ⟨_, rfl, rfl, fun _ => rfl⟩
  · refine ⟨e.text env.plain c!"Regex", [], ?_⟩
    rintro p hf rfl
    unfold regexToNfa
    simp only [a2, loadResult]
    exact ⟨_, rfl, rfl, fun h => absurd h a1⟩

/-- What drawing an NFA shows on the button depends on the text. -/
theorem visualizeNfa_det (env : Env) (hcl : Segmentation env.cl) (o : Orders) (ho : o.Valid) (t : Str) :
    ∃ label, ∀ p : Page, Fresh p.store → p.value .visualize = t → ∃ q, visualizeNfa env o p = some q ∧ q.label .visualize = label := by
  rcases load_nfa_cases hcl t with ⟨n, a1, a2, a4, a5, a6⟩ | ⟨a1, e, a7, a2⟩
  · refine ⟨c!"Visualize!", ?_⟩
    rintro p hf rfl
    obtain ⟨q, h1, _, _, _, h2, _⟩ := visualizeNfa_run env hcl o ho p hf
    exact ⟨q, h1, (h2 (legal_nfa a1)).1⟩
  · refine ⟨e.text env.plain c!"NFA", ?_⟩
    rintro p hf rfl
    unfold visualizeNfa
    simp only [a2, loadResult]
    exact ⟨_, rfl, rfl⟩

end Site
end Dandy
