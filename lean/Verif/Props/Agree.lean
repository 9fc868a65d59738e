import Verif.Props.Site
import Verif.Proofs.LineEnds
import Verif.Props.CliMain
/-!
# The website, the program and the library agree

Property C102.
-/

namespace Dandy

open Site
open Cli (AutomataType Automata IsTextOf Minimal Host World RunOrd Run EquivalenceArgs)
open Cli.Automata (load)
open TableText (Name)

/-- `dandy --no-log equivalence --in-type ty1 --type ty2 --path-length 0 [--minimized] ref file`: the verdict about one file, without its path. -/
def checkFile (h : Host) (o : RunOrd) (w : World) (ty1 ty2 : AutomataType) (minimized : Bool) (ref file : Str) : Option Run :=
  Cli.main h o w ⟨none, true, .equivalence ⟨some ty1, ty2, minimized, false, some 0, ref, [file]⟩⟩

private theorem load_of_text {cl : Str → Nat} (hcl : Segmentation cl) {t : Str} {b : Automata} (hb : IsTextOf cl t b) :
    ∃ a, load cl t b.getType = .ok a ∧ a.getType = b.getType ∧ IsTextOf cl t a ∧
      (∀ l, a.HasAlphabet l ↔ b.HasAlphabet l) ∧ ∀ x, a.Lang x ↔ b.Lang x := by
  obtain ⟨a, ha⟩ := (C61_load_succeeds_iff cl hcl t b.getType).2 ⟨b, rfl, hb⟩
  obtain ⟨_, h2, h3, h4⟩ := C61_load_content cl hcl t b.getType a ha
  exact ⟨a, ha, h2, h3, h4 b rfl hb⟩

private theorem elems_of_alphabet {a : Automata} {l : List Str} (h : a.HasAlphabet l) : SameElems a.elems l := by
  cases a with
  | dfa d => cases h; exact fun _ => Iff.rfl
  | nfa n => cases h; exact fun _ => Iff.rfl
  | regex t => exact fun x => (h.2.1 x).symm

private theorem alphabet_self {a : Automata} (h : a.getType ≠ .regex) : a.HasAlphabet a.elems := by
  cases a with
  | dfa d => rfl
  | nfa n => rfl
  | regex t => exact absurd rfl h

private theorem load_dfa_text {cl : Str → Nat} {t : Str} {m : Dfa} (h : IsTextOf cl t (.dfa m)) : load cl t .dfa = .ok (.dfa m) := by
  obtain ⟨p, h1, h2, h3⟩ := h
  obtain ⟨d, hd⟩ := (C38_succeeds_iff p).2 h2
  rw [(C38_content p d hd).2.2 m h3]
  exact Cli.Automata.load_dfa_iff.2 ⟨p, d, fa_dfa_iff.2 h1, hd, rfl⟩

private theorem checkFile_legal {h : Host} {o : RunOrd} (ho : o.Valid) {w : World} {ty1 ty2 : AutomataType} {m : Bool}
    {ref file t u : Str} {x y : Automata} (hr : w.read ref = .ok t) (hf : w.read file = .ok u) (hx : load h.cl t ty1 = .ok x)
    (hy : load h.cl u ty2 = .ok y) (hm : m = true → ty2 = .dfa) :
    ∃ r, checkFile h o w ty1 ty2 m ref file = some r ∧ r.stderr = [] ∧
      (x.Same y → (m = true → ∀ d, y = .dfa d → Minimal d) → r.stdout = c!"Equivalent\n") ∧
      (¬ x.Same y → r.stdout = c!"Not Equivalent\n") := by
  have href : Cli.Automata.loadFile (h.env w) ref ty1 = .ok x := by
    unfold Cli.Automata.loadFile
    rw [show (h.env w).read ref = _ from hr]
    exact hx
  obtain ⟨r, results, lines, h1, h2, h3, h4, h5, _⟩ := C78_equivalence h o ho w ⟨some ty1, ty2, m, false, some 0, ref, [file]⟩ x href hm
  refine ⟨r, h1, h5, ?_⟩
  cases h2 with
  | cons hv hnil =>
    cases hnil
    cases h3 with
    | cons hs hnil2 =>
      cases hnil2
      unfold Cli.Verdict at hv
      rw [show (h.env w).read file = _ from hf] at hv
      dsimp only at hv
      rw [show load (h.env w).cl u ty2 = _ from hy] at hv
      dsimp only at hv
      obtain ⟨pre, text, rfl, s1, _, s3⟩ := hs
      have s3 := s3 rfl
      rcases s1 with ⟨_, rfl⟩ | ⟨p, s1, _⟩
      · rw [h4]
        rcases hv with ⟨v1, rfl⟩ | ⟨v1, v2, rfl⟩ | ⟨v1, v2, rfl⟩
        · exact ⟨fun hc => absurd hc v1, fun _ => by rw [s3]; rfl⟩
        · exact ⟨fun _ hc => absurd (hc v2.1) v2.2, fun hc => absurd v1 hc⟩
        · exact ⟨fun _ _ => by rw [s3]; rfl, fun hc => absurd v1 hc⟩
      · cases s1

private theorem checkFile_cases {h : Host} (hcl : Segmentation h.cl) {o : RunOrd} (ho : o.Valid) {w : World} {ty : AutomataType}
    (hty : ty ≠ .regex) {ref file t u : Str} (hr : w.read ref = .ok t) (hf : w.read file = .ok u) :
    ∃ r, checkFile h o w ty ty false ref file = some r ∧
      (SameTexts h.cl ty t u → r.stdout = c!"Equivalent\n" ∧ r.stderr = []) ∧
      (Legal h.cl ty t → Legal h.cl ty u → ¬ SameTexts h.cl ty t u → r.stdout = c!"Not Equivalent\n" ∧ r.stderr = []) ∧
      (Legal h.cl ty t → ¬ Legal h.cl ty u → r.stderr = [] ∧ ∃ m, r.stdout = c!"Failed to parse (" ++ m ∨ r.stdout = c!"Failed to validate (" ++ m) ∧
      (¬ Legal h.cl ty t → r.stdout = [] ∧ ∃ line, r.stderr = [c!"Error in Equivalence: " ++ line]) := by
  have hload : ∀ {v : Str}, Legal h.cl ty v ↔ ∃ x, load h.cl v ty = .ok x := fun {v} => (C61_load_succeeds_iff h.cl hcl v ty).symm
  by_cases ht : Legal h.cl ty t
  · obtain ⟨x, hx⟩ := hload.1 ht
    obtain ⟨_, x2, x3, x4⟩ := C61_load_content h.cl hcl t ty x hx
    by_cases hu : Legal h.cl ty u
    · obtain ⟨y, hy⟩ := hload.1 hu
      obtain ⟨_, y2, y3, y4⟩ := C61_load_content h.cl hcl u ty y hy
      obtain ⟨r, h1, h2, h3, h4⟩ := checkFile_legal (m := false) (o := o) ho hr hf hx hy (fun e => by cases e)
      have hsame : SameTexts h.cl ty t u ↔ x.Same y := by
        constructor
        · rintro ⟨a, b, a1, b1, a2, b2, e1, e2⟩
          obtain ⟨p1, p2⟩ := x4 a a1 a2
          obtain ⟨q1, q2⟩ := y4 b b1 b2
          have e3 := elems_of_alphabet ((p1 _).2 (alphabet_self (a1 ▸ hty)))
          have e4 := elems_of_alphabet ((q1 _).2 (alphabet_self (b1 ▸ hty)))
          exact ⟨fun g => (e3 g).trans ((e1 g).trans (e4 g).symm), fun v => (p2 v).trans ((e2 v).trans (q2 v).symm)⟩
        · intro hxy
          exact ⟨x, y, x2, y2, x3, y3, hxy⟩
      exact ⟨r, h1, fun hs => ⟨h3 (hsame.1 hs) (fun e => by cases e), h2⟩, fun _ _ hs => ⟨h4 (fun hc => hs (hsame.2 hc)), h2⟩,
        fun _ hc => absurd hu hc, fun hc => absurd ht hc⟩
    · have href : Cli.Automata.loadFile (h.env w) ref ty = .ok x := by
        unfold Cli.Automata.loadFile
        rw [show (h.env w).read ref = _ from hr]
        exact hx
      obtain ⟨r, results, lines, h1, h2, h3, h4, h5, _⟩ := C78_equivalence h o ho w ⟨some ty, ty, false, false, some 0, ref, [file]⟩ x href
        (fun e => by cases e)
      refine ⟨r, h1, ?_, fun _ hc => absurd hc hu, fun _ _ => ⟨h5, ?_⟩, fun hc => absurd ht hc⟩
      · rintro ⟨_, b, _, b1, _, b2, _⟩
        exact absurd ⟨b, b1, b2⟩ hu
      cases h2 with
      | cons hv hnil =>
        cases hnil
        cases h3 with
        | cons hs hnil2 =>
          cases hnil2
          unfold Cli.Verdict at hv
          rw [show (h.env w).read file = _ from hf] at hv
          dsimp only at hv
          obtain ⟨pre, text, rfl, s1, _, s3⟩ := hs
          have s3 := s3 rfl
          cases hy : load (h.env w).cl u ty with
          | ok y => exact absurd (hload.2 ⟨y, hy⟩) hu
          | error e =>
            rw [hy] at hv
            cases hv
            have hexp := C61_load_error h.cl hcl u ty e hy
            rcases s1 with ⟨_, rfl⟩ | ⟨p, s1, _⟩
            · rw [h4, s3]
              cases e with
              | file p m => exact hexp.elim
              | dfaParse e => exact ⟨_, Or.inl (by simp [Cli.printed, Cli.loadVerdict, Cli.verdictText]; rfl)⟩
              | nfaParse e => exact ⟨_, Or.inl (by simp [Cli.printed, Cli.loadVerdict, Cli.verdictText]; rfl)⟩
              | regexParse e => exact ⟨_, Or.inl (by simp [Cli.printed, Cli.loadVerdict, Cli.verdictText]; rfl)⟩
              | dfaCompile e => exact ⟨_, Or.inr (by simp [Cli.printed, Cli.loadVerdict, Cli.verdictText]; rfl)⟩
              | nfaCompile e => exact ⟨_, Or.inr (by simp [Cli.printed, Cli.loadVerdict, Cli.verdictText]; rfl)⟩
            · cases s1
  · have hl : ¬ Cli.Loadable h w ref ty := by
      rintro ⟨a, text, e1, e2, e3⟩
      rw [hr] at e1
      cases e1
      exact ht ⟨a, e2, e3⟩
    obtain ⟨e, he⟩ := Cli.not_loadable_error hcl hl
    obtain ⟨eff, f1, f2, f3⟩ := (C48_command_errors (h.env w) o.min1 true ⟨some ty, ty, false, false, some 0, ref, [file]⟩).1 e he
    obtain ⟨r, pre, post, h1, h2, h3, _, _, h6⟩ := C76_errors h hcl o ho w
      ⟨none, true, .equivalence ⟨some ty, ty, false, false, some 0, ref, [file]⟩⟩ (fun out ho => by cases ho)
    have hpre : pre = [] := by
      rcases h3 with h3 | ⟨_, _, h3, _⟩
      · exact h3
      · cases h3
    obtain ⟨msg, hm, hp⟩ := h6 (Or.inl hl)
    refine ⟨r, h1, ?_, fun hc => absurd hc ht, fun hc => absurd hc ht, fun _ => ⟨?_, msg, by rw [h2, hpre, hp]; rfl⟩⟩
    · rintro ⟨a, _, a1, _, a2, _⟩
      exact absurd ⟨a, a1, a2⟩ ht
    · have hx : Cli.runCommand h none w o ⟨none, true, .equivalence ⟨some ty, ty, false, false, some 0, ref, [file]⟩⟩ =
          some ((eff.mapErr (Cli.EquivalenceError.text h.plain)).mapErr (fun t => c!"Error in Equivalence: " ++ t)) := by
        unfold Cli.runCommand
        dsimp only
        rw [f1]
        rfl
      have := Cli.main_none hx
      rw [h1] at this
      cases this
      show Cli.stdout eff.lines = []
      rw [f2]
      rfl

private theorem isTextOf_crlf {cl : Str → Nat} {t u : Str} (h : Crlf t u) {a : Automata} (ha : a.getType ≠ .regex) :
    IsTextOf cl u a ↔ IsTextOf cl t a := by
  cases a with
  | dfa d => simp only [IsTextOf, dfaText_crlf h]
  | nfa n => simp only [IsTextOf, nfaText_crlf h]
  | regex r => exact absurd rfl ha

private theorem legal_normalize {cl : Str → Nat} {t : Str} (h : PairedCr t) {ty : AutomataType} (hty : ty ≠ .regex) :
    Legal cl ty (normalize t) ↔ Legal cl ty t := by
  constructor
  · rintro ⟨a, rfl, h2⟩
    exact ⟨a, rfl, (isTextOf_crlf (crlf_of_paired h) hty).1 h2⟩
  · rintro ⟨a, rfl, h2⟩
    exact ⟨a, rfl, (isTextOf_crlf (crlf_of_paired h) hty).2 h2⟩

private theorem sameTexts_normalize {cl : Str → Nat} {t u : Str} (h : PairedCr t) (h' : PairedCr u) {ty : AutomataType} (hty : ty ≠ .regex) :
    SameTexts cl ty (normalize t) (normalize u) ↔ SameTexts cl ty t u := by
  constructor
  · rintro ⟨a, b, rfl, h2, h3, h4, h5⟩
    exact ⟨a, b, rfl, h2, (isTextOf_crlf (crlf_of_paired h) hty).1 h3, (isTextOf_crlf (crlf_of_paired h') (h2 ▸ hty)).1 h4, h5⟩
  · rintro ⟨a, b, rfl, h2, h3, h4, h5⟩
    exact ⟨a, b, rfl, h2, (isTextOf_crlf (crlf_of_paired h) hty).2 h3, (isTextOf_crlf (crlf_of_paired h') (h2 ▸ hty)).2 h4, h5⟩

/-- The button, the type and the two areas of a comparison on the website. -/
def Comparison (b : Button) (ty : AutomataType) (a1 a2 : Area) : Prop :=
  b = .dfaEq ∧ ty = .dfa ∧ a1 = .dfaEq1 ∧ a2 = .dfaEq2 ∨ b = .nfaEq ∧ ty = .nfa ∧ a1 = .nfaEq1 ∧ a2 = .nfaEq2

/-- **C102** Two tables in files are compared by `dandy equivalence` (the first one is the reference), and by pasting them into the website,
whatever has been done there before. The page says `Equivalent` exactly if the program does, and so for `Not equivalent`; the page says that
there are errors exactly if the program reports an error, either about the reference on standard error or about the file in its verdict.
Every carriage return in the files has to belong to a line end `\r\n`, see `C102_carriage_return_false`. -/
theorem C102_page_and_program (env : Site.Env) (h : Host) (henv : h.cl = env.cl) (hcl : Segmentation env.cl) (es : List Event)
    (hes : ∀ e ∈ es, e.Valid) (oc : Orders) (o : RunOrd) (ho : o.Valid) (w : World)
    (b : Button) (ty : AutomataType) (a1 a2 : Area) (hb : Comparison b ty a1 a2)
    (ref file t u : Str) (hr : w.read ref = .ok t) (hf : w.read file = .ok u) (ht : PairedCr t) (hu : PairedCr u) :
    ∃ q r, history env (.click b oc :: .edit a2 u :: .edit a1 t :: es) = some q ∧ checkFile h o w ty ty false ref file = some r ∧
      (q.label b = c!"Equivalent" ↔ r.stdout = c!"Equivalent\n") ∧
      (q.label b = c!"Not equivalent" ↔ r.stdout = c!"Not Equivalent\n") ∧
      (q.label b = c!"Fix errors first!" ↔ r.stderr ≠ [] ∨
        ∃ m, r.stdout = c!"Failed to parse (" ++ m ∨ r.stdout = c!"Failed to validate (" ++ m) := by
  obtain ⟨p0, hp0⟩ := C70_total env hcl es hes
  have hes' : ∀ e ∈ Event.edit a2 u :: .edit a1 t :: es, e.Valid := by
    intro e he
    rcases List.mem_cons.1 he with rfl | he
    · trivial
    rcases List.mem_cons.1 he with rfl | he
    · trivial
    exact hes e he
  obtain ⟨p, hp⟩ := C70_total env hcl _ hes'
  have hpv : p = (p0.setValue a1 t).setValue a2 u := by
    rw [history, history, hp0] at hp
    have hp := (Option.some.inj hp).symm
    rcases hb with ⟨_, _, rfl, rfl⟩ | ⟨_, _, rfl, rfl⟩ <;> exact hp
  have hv : p.value a1 = normalize t ∧ p.value a2 = normalize u := by
    rw [hpv]
    unfold Page.setValue
    dsimp only
    rcases hb with ⟨_, _, rfl, rfl⟩ | ⟨_, _, rfl, rfl⟩ <;> exact ⟨rfl, rfl⟩
  have hty : ty ≠ .regex := by
    rcases hb with ⟨_, rfl, _⟩ | ⟨_, rfl, _⟩ <;> intro e <;> cases e
  have page : ∃ q w1 w2 errors, history env (.click b oc :: .edit a2 u :: .edit a1 t :: es) = some q ∧
      Checked env.cl env.plain ty w1 w2 (p.value a1) (p.value a2) (q.label b) errors := by
    rcases hb with ⟨rfl, rfl, rfl, rfl⟩ | ⟨rfl, rfl, rfl, rfl⟩
    · obtain ⟨q, h1, _, h2⟩ := C70_dfa env hcl _ hes' oc p hp
      exact ⟨q, _, _, _, h1, h2⟩
    · obtain ⟨q, h1, _, h2⟩ := C70_nfa env hcl _ hes' oc p hp
      exact ⟨q, _, _, _, h1, h2⟩
  obtain ⟨q, w1, w2, errors, h1, h2⟩ := page
  rw [hv.1, hv.2] at h2
  obtain ⟨r, k1, k2, k3, k4, k5⟩ := checkFile_cases (o := o) (henv ▸ hcl) ho hty hr hf
  refine ⟨q, r, h1, k1, ?_⟩
  rw [henv] at k2 k3 k4 k5
  have l1 := legal_normalize (cl := env.cl) ht hty
  have l2 := legal_normalize (cl := env.cl) hu hty
  have l3 := sameTexts_normalize (cl := env.cl) ht hu hty
  by_cases ht : Legal env.cl ty t
  · by_cases hu : Legal env.cl ty u
    · by_cases hs : SameTexts env.cl ty t u
      · rw [h2.same (l3.2 hs), (k2 hs).1, (k2 hs).2]
        simp
      · rw [h2.different (l1.2 ht) (l2.2 hu) (fun hc => hs (l3.1 hc)), (k3 ht hu hs).1, (k3 ht hu hs).2]
        simp
    · rw [h2.illegal (fun hc => hu (l2.1 hc.2)), (k4 ht hu).1]
      obtain ⟨m, hm | hm⟩ := (k4 ht hu).2 <;> rw [hm] <;> simp
  · obtain ⟨line, hl⟩ := (k5 ht).2
    rw [h2.illegal (fun hc => ht (l1.1 hc.1)), (k5 ht).1, hl]
    simp

/-- A world with two files. -/
def twoFiles (t u : Str) : World := ⟨fun p => if p = c!"ref" then 1 else if p = c!"new" then 2 else 0,
  fun i => if i = 1 then .ok t else if i = 2 then .ok u else .error c!"gone"⟩

-- line ends of the two kinds, and an error
example : PairedCr c!"a\r\n-> x x\r\n" ∧
    (history browser [.click .dfaEq orders0, .edit .dfaEq2 c!"a\n-> y y", .edit .dfaEq1 c!"a\r\n-> x x\r\n"]).map (fun p => p.label .dfaEq) =
      some c!"Equivalent" ∧
    console (checkFile host0 runOrd0 (twoFiles c!"a\r\n-> x x\r\n" c!"a\n-> y y") .dfa .dfa false c!"ref" c!"new") =
      some (c!"Equivalent\n", []) ∧
    (history browser [.click .dfaEq orders0, .edit .dfaEq2 c!"a\n-> y z", .edit .dfaEq1 c!"a\r\n-> x x\r\n"]).map (fun p => p.label .dfaEq) =
      some c!"Fix errors first!" ∧
    console (checkFile host0 runOrd0 (twoFiles c!"a\r\n-> x x\r\n" c!"a\n-> y z") .dfa .dfa false c!"ref" c!"new") =
      some (c!"Failed to validate (State 'z' does not exist (in transition from state 'y'))\n", []) := by
  refine ⟨?_, by decide +kernel⟩
  intro a b h
  have hx : ∀ n, n < (c!"a\r\n-> x x\r\n").length → (c!"a\r\n-> x x\r\n")[n]? = some '\r' → (c!"a\r\n-> x x\r\n")[n + 1]? = some '\n' := by decide
  have h1 := hx a.length (by rw [h]; simp) (by rw [h]; simp)
  rw [h] at h1
  cases b with
  | nil => simp at h1
  | cons c b => simp at h1; exact ⟨b, by rw [h1]⟩

private theorem history_cons {env : Site.Env} {es : List Event} {p : Page} (hp : history env es = some p) {a : Area} (ha : a.readonly = false)
    (t : Str) : history env (.edit a t :: es) = some (p.setValue a t) := by
  rw [history, hp]
  simp only [Option.bind_eq_bind, Option.bind_some, step, ha]
  rfl

/-- **C102** A table whose lines end with carriage returns alone is a table on the website, but not for the program. -/
theorem C102_carriage_return_false :
    (history browser [.click .dfaEq orders0, .edit .dfaEq2 c!"a\n-> x x", .edit .dfaEq1 c!"a\r-> x x"]).map (fun p => p.label .dfaEq) =
      some c!"Equivalent" ∧
    console (checkFile host0 runOrd0 (twoFiles c!"a\r-> x x" c!"a\n-> x x") .dfa .dfa false c!"ref" c!"new") =
      some ([], [c!"Error in Equivalence: Error parsing DFA: Error { input: \"\\r-> x x\", code: CrLf }"]) := by
  decide +kernel

/-- **C102** A DFA is pasted into the website and minimized, and the result is saved to a file (with line ends of either kind): it passes
`dandy equivalence --minimized` with the DFA as the reference. -/
theorem C102_minimized (env : Site.Env) (h : Host) (hcl : Segmentation env.cl) (es : List Event)
    (hes : ∀ e ∈ es, e.Valid) (oc : Orders) (hoc : oc.Valid) (o : RunOrd) (ho : o.Valid) (w : World) (ref t : Str) (hr : w.read ref = .ok t)
    (ht : PairedCr t) (hl : Legal env.cl .dfa t) :
    ∃ q, history env (.click .minimize oc :: .edit .minimize t :: es) = some q ∧
      ∀ file u, w.read file = .ok u → Crlf u (q.value .minimizeOut) →
        ∃ r, checkFile h o w .dfa .dfa true ref file = some r ∧ r.stdout = c!"Equivalent\n" ∧ r.stderr = [] := by
  obtain ⟨p0, hp0⟩ := C70_total env hcl es hes
  have hp := history_cons hp0 (a := .minimize) rfl t
  have hes' : ∀ e ∈ Event.edit .minimize t :: es, e.Valid := by
    intro e he
    rcases List.mem_cons.1 he with rfl | he
    · trivial
    exact hes e he
  obtain ⟨q, h1, _, h3, _⟩ := C71_minimize env hcl _ hes' oc hoc _ hp
  refine ⟨q, h1, fun file u hf hu => ?_⟩
  obtain ⟨a, ha, htx⟩ := hl
  cases a with
  | nfa n => cases ha
  | regex t => cases ha
  | dfa d =>
    obtain ⟨_, m, m1, m2, m3, m4⟩ := h3 d ((isTextOf_crlf (crlf_of_paired ht) (by intro e; cases e)).2 htx)
    rw [isTextOf_crlf hu (by intro e; cases e)] at m1
    obtain ⟨r, r1, r2, r3, _⟩ := checkFile_legal (m := true) (h := h) (o := o) ho hr hf (load_dfa_text htx) (load_dfa_text m1) (fun _ => rfl)
    refine ⟨r, r1, r3 ⟨fun g => ?_, fun v => (m4 v).symm⟩ (fun _ d' hd => ?_), r2⟩
    · show g ∈ d.alphabet ↔ g ∈ m.alphabet
      rw [m3]
    · cases hd
      exact m2

/-- **C102** An NFA with at least one element is pasted into the website and converted, and the result is saved to a file: it passes
`dandy equivalence --in-type nfa --type dfa` with the NFA as the reference. -/
theorem C102_converted (env : Site.Env) (h : Host) (henv : h.cl = env.cl) (hcl : Segmentation env.cl) (es : List Event)
    (hes : ∀ e ∈ es, e.Valid) (oc : Orders) (o : RunOrd) (ho : o.Valid) (w : World) (ref t : Str) (hr : w.read ref = .ok t)
    (ht : PairedCr t) (n : Nfa) (hn : IsTextOf env.cl t (.nfa n)) (hal : n.alphabet ≠ []) :
    ∃ q, history env (.click .nfaToDfa oc :: .edit .nfaToDfa t :: es) = some q ∧
      ∀ file u, w.read file = .ok u → Crlf u (q.value .nfaToDfaOut) →
        ∃ r, checkFile h o w .nfa .dfa false ref file = some r ∧ r.stdout = c!"Equivalent\n" ∧ r.stderr = [] := by
  obtain ⟨p0, hp0⟩ := C70_total env hcl es hes
  have hp := history_cons hp0 (a := .nfaToDfa) rfl t
  have hes' : ∀ e ∈ Event.edit .nfaToDfa t :: es, e.Valid := by
    intro e he
    rcases List.mem_cons.1 he with rfl | he
    · trivial
    exact hes e he
  obtain ⟨q, h1, _, _, h4, _⟩ := C71_nfa_to_dfa env hcl _ hes' oc _ hp
  refine ⟨q, h1, fun file u hf hu => ?_⟩
  obtain ⟨d, d1, d2, d3⟩ := h4 n ((isTextOf_crlf (crlf_of_paired ht) (by intro e; cases e)).2 hn) hal
  rw [isTextOf_crlf hu (by intro e; cases e)] at d1
  obtain ⟨x, x1, _, _, x4, x5⟩ := load_of_text hcl hn
  obtain ⟨r, r1, r2, r3, _⟩ := checkFile_legal (m := false) (h := h) (o := o) ho hr hf (henv.symm ▸ x1) (load_dfa_text d1) (fun e => by cases e)
  refine ⟨r, r1, r3 ⟨fun g => ?_, fun v => (x5 v).trans (d3 v).symm⟩ (fun e => by cases e), r2⟩
  have := elems_of_alphabet ((x4 n.alphabet).2 rfl) g
  rw [← d2] at this
  exact this

/-- **C102** An expression (without carriage returns, and with elements that can be written in tables) is pasted into the website and
converted, and the result is saved to a file: it passes `dandy equivalence --in-type regex --type nfa` with the expression as the reference. -/
theorem C102_regex (env : Site.Env) (h : Host) (henv : h.cl = env.cl) (hcl : Segmentation env.cl) (es : List Event)
    (hes : ∀ e ∈ es, e.Valid) (oc : Orders) (o : RunOrd) (ho : o.Valid) (w : World) (ref t : Str) (hr : w.read ref = .ok t)
    (ht : '\r' ∉ t) (e : RegexTree) (he : IsTextOf env.cl t (.regex e)) (hal : ∀ g ∈ e.graphemes, Name g) :
    ∃ q, history env (.click .regexToNfa oc :: .edit .regex t :: es) = some q ∧
      ∀ file u, w.read file = .ok u → Crlf u (q.value .regexOut) →
        ∃ r, checkFile h o w .regex .nfa false ref file = some r ∧ r.stdout = c!"Equivalent\n" ∧ r.stderr = [] := by
  obtain ⟨p0, hp0⟩ := C70_total env hcl es hes
  have hp := history_cons hp0 (a := .regex) rfl t
  have hes' : ∀ e ∈ Event.edit .regex t :: es, e.Valid := by
    intro e he
    rcases List.mem_cons.1 he with rfl | he
    · trivial
    exact hes e he
  obtain ⟨q, h1, _, h3, _⟩ := C71_regex env hcl _ hes' oc _ hp
  refine ⟨q, h1, fun file u hf hu => ?_⟩
  have hv : (p0.setValue .regex t).value .regex = t := by
    show normalize t = t
    exact normalize_self ht
  rw [hv] at h3
  obtain ⟨n, n1, n2, n3⟩ := (h3 e he).2 hal
  rw [isTextOf_crlf hu (by intro e; cases e)] at n1
  obtain ⟨x, x1, _, _, x4, x5⟩ := load_of_text hcl he
  obtain ⟨y, y1, _, _, y4, y5⟩ := load_of_text hcl n1
  obtain ⟨r, r1, r2, r3, _⟩ := checkFile_legal (m := false) (h := h) (o := o) ho hr hf (henv.symm ▸ x1) (henv.symm ▸ y1) (fun e => by cases e)
  refine ⟨r, r1, r3 ⟨fun g => ?_, fun v => (x5 v).trans ((n3 v).symm.trans (y5 v).symm)⟩ (fun e => by cases e), r2⟩
  exact (elems_of_alphabet ((x4 n.alphabet).2 n2) g).trans (elems_of_alphabet ((y4 n.alphabet).2 rfl) g).symm

/-- What the program says about a result of the website. -/
def roundTrip (b : Button) (a out : Area) (ty1 ty2 : AutomataType) (m : Bool) (t : Str) : Option (Str × List Str) :=
  (history browser [.click b orders0, .edit a t]).bind (fun q => console (checkFile host0 runOrd0 (twoFiles t (q.value out)) ty1 ty2 m c!"ref" c!"new"))

example : roundTrip .minimize .minimize .minimizeOut .dfa .dfa true c!"a b\r\n-> x y x\r\n* y y x\r\n* z y x" = some (c!"Equivalent\n", []) ∧
    roundTrip .nfaToDfa .nfaToDfa .nfaToDfaOut .nfa .dfa false c!"a eps\n-> x {x y} {}\n* y {} {x}" = some (c!"Equivalent\n", []) ∧
    roundTrip .regexToNfa .regex .regexOut .regex .nfa false c!"(a|b)*" = some (c!"Equivalent\n", []) := by decide +kernel

/-- **C102** Without elements, the converted NFA does not pass. -/
theorem C102_empty_alphabet_false :
    roundTrip .nfaToDfa .nfaToDfa .nfaToDfaOut .nfa .dfa false c!"eps\n-> x {}" =
      some (c!"Failed to parse (error Verify at: →  0 )\n", []) := by decide +kernel

end Dandy
