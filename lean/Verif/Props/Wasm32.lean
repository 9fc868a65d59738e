import Verif.Model.Wasm32
import Verif.Props.Wasm
/-! # C101: the handles of the wasm bindings with 32 bits -/

namespace Dandy
open Wasm
open Cli (AutomataType)

/-- How many handles have been created. -/
def createdCount (h : List (Call × Result)) : Nat := (h.filterMap created).length

private theorem count_cons (e : Call × Result) (h : List (Call × Result)) :
    createdCount (e :: h) = createdCount h + if (created e).isSome then 1 else 0 := by
  unfold createdCount
  rw [List.filterMap_cons]
  cases created e <;> simp

private theorem session32_cons {checks : Bool} {env : Env} {c : Call} {cs : List Call} {s' : Store} {hist : List (Call × Result)}
    (h : session32 checks env (c :: cs) = some (s', hist)) :
    ∃ s h r, session32 checks env cs = some (s, h) ∧ call32 checks env s c = some (s', r) ∧ hist = (c, r) :: h := by
  rw [session32] at h
  obtain ⟨⟨s, h0⟩, h1, h⟩ := Option.bind_eq_some_iff.1 h
  obtain ⟨⟨s2, r⟩, h2, h⟩ := Option.bind_eq_some_iff.1 h
  have h := Option.some.inj h
  cases h
  exact ⟨s, h0, r, h1, h2, rfl⟩

private theorem next_count {env : Env} (hcl : Segmentation env.cl) : ∀ {cs : List Call} {s : Store} {h : List (Call × Result)},
    session env cs = some (s, h) → s.nextKey = createdCount h + 1
  | [], s, h, hs => by cases hs; rfl
  | c :: cs, s, h, hs => by
    obtain ⟨s0, h0, r, h1, h2, rfl⟩ := session_cons hs
    have := (call_effect hcl h2).1.next
    rw [this, count_cons, next_count hcl h1]
    split <;> omega

private theorem call32_small {checks : Bool} {env : Env} {s s' : Store} {c : Call} {r : Result} (h : call env s c = some (s', r))
    (hs : s'.nextKey < keyLimit) : call32 checks env s c = some (s', r) := by
  unfold call32
  rw [h]
  simp only [Option.bind_eq_bind, Option.bind_some, hs, if_true]
  rfl

/-- **C101** As long as fewer than 2^32 - 1 handles have been created, 32 bits make no difference, with or without overflow checks: the same
results and the same objects, so everything said about sessions (C53, C54, C70-C75) holds. -/
theorem C101_same (checks : Bool) (env : Env) (hcl : Segmentation env.cl) : ∀ (cs : List Call) (s : Store) (h : List (Call × Result)),
    session env cs = some (s, h) → createdCount h < 2 ^ 32 - 1 → session32 checks env cs = some (s, h)
  | [], s, h, hs, _ => hs
  | c :: cs, s, h, hs, hc => by
    have hn := next_count hcl hs
    obtain ⟨s0, h0, r, h1, h2, rfl⟩ := session_cons hs
    have hc0 : createdCount h0 < 2 ^ 32 - 1 := by
      rw [count_cons] at hc
      omega
    rw [session32, C101_same checks env hcl cs s0 h0 h1 hc0]
    have := call32_small (checks := checks) h2 (by rw [hn]; unfold keyLimit; omega)
    simp only [Option.bind_eq_bind, Option.bind_some, this]
    rfl

/-- **C101** With overflow checks the only other outcome is a panic: a session is answered exactly if it is answered without the limit and creates
fewer than 2^32 - 1 handles, and the answers are the same. -/
theorem C101_checked (env : Env) (hcl : Segmentation env.cl) (cs : List Call) (s : Store) (h : List (Call × Result)) :
    session32 true env cs = some (s, h) ↔ session env cs = some (s, h) ∧ createdCount h < 2 ^ 32 - 1 := by
  constructor
  · induction cs generalizing s h with
    | nil => intro hs; cases hs; exact ⟨rfl, by decide⟩
    | cons c cs ih =>
      intro hs
      obtain ⟨s0, h0, r, h1, h2, rfl⟩ := session32_cons hs
      obtain ⟨e1, e2⟩ := ih s0 h0 h1
      unfold call32 at h2
      obtain ⟨⟨s1, r1⟩, h3, h2⟩ := Option.bind_eq_some_iff.1 h2
      dsimp only at h2
      by_cases hl : s1.nextKey < keyLimit
      · rw [if_pos hl] at h2
        cases h2
        have e3 : session env (c :: cs) = some (s, (c, r) :: h0) := by
          rw [session, e1]
          simp only [Option.bind_eq_bind, Option.bind_some, h3]
          rfl
        refine ⟨e3, ?_⟩
        have := next_count hcl e3
        unfold keyLimit at hl
        omega
      · rw [if_neg hl] at h2
        cases h2
  · rintro ⟨h1, h2⟩
    exact C101_same true env hcl cs s h h1 h2

example : session32 true page visit = session page visit ∧ session32 false page visit = session page visit := by
  obtain ⟨s, h, h1, _⟩ := C54_total page cl1_seg visit visit_valid
  have hc : (session page visit).map (fun x => createdCount x.2) = some 4 := by decide +kernel
  rw [h1] at hc
  have hc : createdCount h = 4 := Option.some.inj hc
  have hc' : createdCount h < 2 ^ 32 - 1 := by rw [hc]; decide
  rw [h1]
  exact ⟨C101_same true page cl1_seg _ _ _ h1 hc', C101_same false page cl1_seg _ _ _ h1 hc'⟩

/-- **C101** Without overflow checks (as the page is built) the handles are the numbers 1, 2, 3, … modulo 2^32 in the order of their creation:
a handle is given out again exactly after another 2^32 - 1 ones. -/
theorem C101_numbers (env : Env) (hcl : Segmentation env.cl) (cs : List Call) (s : Store) (h : List (Call × Result))
    (hs : session32 false env cs = some (s, h)) (i : Nat) (p : AutomataType × Nat) (hp : (h.filterMap created).reverse[i]? = some p) :
    p.2 = (i + 1) % 2 ^ 32 := by
  have key : ∀ (cs : List Call) (s : Store) (h : List (Call × Result)), session32 false env cs = some (s, h) →
      s.nextKey = (createdCount h + 1) % 2 ^ 32 ∧ ∀ i p, (h.filterMap created).reverse[i]? = some p → p.2 = (i + 1) % 2 ^ 32 := by
    intro cs
    induction cs with
    | nil => intro s h hs; cases hs; exact ⟨rfl, by simp⟩
    | cons c cs ih =>
      intro s h hs
      obtain ⟨s0, h0, r, h1, h2, rfl⟩ := session32_cons hs
      obtain ⟨e1, e2⟩ := ih s0 h0 h1
      unfold call32 at h2
      obtain ⟨⟨s1, r1⟩, h3, h2⟩ := Option.bind_eq_some_iff.1 h2
      have he : s.nextKey = s1.nextKey % 2 ^ 32 ∧ r = r1 := by
        dsimp only at h2
        by_cases hl : s1.nextKey < keyLimit
        · rw [if_pos hl] at h2
          cases h2
          exact ⟨(Nat.mod_eq_of_lt hl).symm, rfl⟩
        · rw [if_neg hl] at h2
          cases h2
          exact ⟨rfl, rfl⟩
      obtain ⟨he, rfl⟩ := he
      have hf := (call_effect hcl h3).1
      cases hcr : created (c, r) with
      | none =>
        have hn := hf.next
        rw [hcr] at hn
        simp only [Option.isSome_none, Bool.false_eq_true, if_false] at hn
        constructor
        · rw [he, hn, e1, count_cons, hcr]
          simp
        · rw [List.filterMap_cons, hcr]
          exact e2
      | some q =>
        have hn := hf.next
        rw [hcr] at hn
        simp only [Option.isSome_some, if_true] at hn
        constructor
        · rw [he, hn, e1, count_cons, hcr]
          simp only [Option.isSome_some, if_true]
          omega
        · intro i p hp
          rw [List.filterMap_cons, hcr] at hp
          simp only [List.reverse_cons] at hp
          rcases Nat.lt_or_ge i (createdCount h0) with hi | hi
          · rw [List.getElem?_append_left (by rw [List.length_reverse]; exact hi)] at hp
            exact e2 i p hp
          · rw [List.getElem?_append_right (by rw [List.length_reverse]; exact hi), List.length_reverse] at hp
            have hi' : i = createdCount h0 := by
              obtain ⟨hlt, _⟩ := List.getElem?_eq_some_iff.1 hp
              simp only [List.length_singleton] at hlt
              unfold createdCount at *
              omega
            subst hi'
            have : p = q := by
              unfold createdCount at hp
              simpa using hp.symm
            subst this
            rw [(hf.key p.1 p.2 hcr).1, e1]
  exact (key cs s h hs).2 i p hp

example : (session32 false page visit).map (fun x => (x.2.filterMap created).reverse) = some [(.regex, 1), (.nfa, 2), (.dfa, 3), (.dfa, 4)] := by
  decide +kernel

/-- **C101** Without overflow checks no sequence of calls panics, however long. -/
theorem C101_total (env : Env) (hcl : Segmentation env.cl) (cs : List Call) (hcs : ∀ c ∈ cs, c.Valid) :
    ∃ s h, session32 false env cs = some (s, h) ∧ h.map (·.1) = cs := by
  have key : ∀ cs : List Call, (∀ c ∈ cs, c.Valid) → ∃ s h, session32 false env cs = some (s, h) ∧ h.map (·.1) = cs ∧
      ∀ ty k a, s.obj ty k = some a → GoodObj a ∧ a.getType = ty := by
    intro cs
    induction cs with
    | nil => exact fun _ => ⟨_, _, rfl, rfl, (inv_init env).good⟩
    | cons c cs ih =>
      intro hcs
      obtain ⟨s, h, h1, h2, h3⟩ := ih (fun c hc => hcs c (List.mem_cons_of_mem _ hc))
      obtain ⟨s', r, h4⟩ := call_total_good (env := env) h3 (hcs c List.mem_cons_self)
      have h5 := good_step hcl h3 (hcs c List.mem_cons_self) h4
      have h6 : call32 false env s c = some (if s'.nextKey < keyLimit then s' else { s' with nextKey := s'.nextKey % keyLimit }, r) := by
        unfold call32
        rw [h4]
        simp only [Option.bind_eq_bind, Option.bind_some]
        split <;> rfl
      refine ⟨if s'.nextKey < keyLimit then s' else { s' with nextKey := s'.nextKey % keyLimit }, (c, r) :: h, ?_, by simp [h2], ?_⟩
      · rw [session32, h1]
        simp only [Option.bind_eq_bind, Option.bind_some, h6]
        rfl
      · split
        · exact h5
        · exact h5
  obtain ⟨s, h, h1, h2, _⟩ := key cs hcs
  exact ⟨s, h, h1, h2⟩

example : ∃ s h, session32 false page visit = some (s, h) ∧ h.map (·.1) = visit := C101_total page cl1_seg visit visit_valid

/-- A DFA that accepts the word `a`, as text. -/
def firstText : Str := c!"a\n-> x y\n * y y"

/-- Another DFA: no word is accepted. -/
def otherText : Str := c!"a\n-> z z"

/-- The automata of the texts. -/
def firstDfa : Dfa := ⟨[c!"a"], [⟨c!"x", true, false, [1]⟩, ⟨c!"y", false, true, [1]⟩], 0⟩

/-- The automaton of the other text. -/
def otherDfa : Dfa := ⟨[c!"a"], [⟨c!"z", true, false, [0]⟩], 0⟩

/-- Load a DFA, and then load and delete another one again and again (newest call first). -/
def rounds : Nat → List Call
  | 0 => [.loadDfa firstText]
  | n + 1 => .deleteDfa ((n + 2) % 2 ^ 32) :: .loadDfa otherText :: rounds n

/-- What these calls return. -/
def roundsHistory : Nat → List (Call × Result)
  | 0 => [(.loadDfa firstText, .loaded (.ok 1))]
  | n + 1 => (.deleteDfa ((n + 2) % 2 ^ 32), .flag true) :: (.loadDfa otherText, .loaded (.ok ((n + 2) % 2 ^ 32))) :: roundsHistory n

private theorem load_ok {text : Str} {p : ParsedDfa} {d : Dfa} (h1 : FaE.dfa text = .ok p) (h2 : Validate.dfa p = .ok d) (s : Store) :
    loadDfa s text = ({ s with nextKey := s.nextKey + 1, dfas := s.dfas.insert s.nextKey d }, .loaded (.ok s.nextKey)) := by
  unfold loadDfa
  rw [h1]
  dsimp only
  rw [h2]
  rfl

private theorem load_first (s : Store) : loadDfa s firstText =
    ({ s with nextKey := s.nextKey + 1, dfas := s.dfas.insert s.nextKey firstDfa }, .loaded (.ok s.nextKey)) :=
  load_ok (p := ⟨[c!"a"], [⟨c!"x", true, false, [c!"y"]⟩, ⟨c!"y", false, true, [c!"y"]⟩]⟩) (by decide +kernel) (by decide +kernel) s

private theorem load_other (s : Store) : loadDfa s otherText =
    ({ s with nextKey := s.nextKey + 1, dfas := s.dfas.insert s.nextKey otherDfa }, .loaded (.ok s.nextKey)) :=
  load_ok (p := ⟨[c!"a"], [⟨c!"z", true, false, [c!"z"]⟩]⟩) (by decide +kernel) (by decide +kernel) s

/-- Storing the next object wraps around. -/
private theorem load32 (env : Env) (m : Map Dfa) (k : Nat) (hk : k < 2 ^ 32) :
    call32 false env ⟨m, [], [], k⟩ (.loadDfa otherText) = some (⟨m.insert k otherDfa, [], [], (k + 1) % 2 ^ 32⟩, .loaded (.ok k)) := by
  unfold call32
  simp only [call, load_other, Option.bind_eq_bind, Option.bind_some, keyLimit]
  by_cases h : k + 1 < 2 ^ 32
  · rw [if_pos h, Nat.mod_eq_of_lt h]
    rfl
  · rw [if_neg h]
    rfl

private theorem remove_only (k : Nat) (hk : k ≠ 1) (a b : Dfa) : (Map.insert [(1, a)] k b).remove k = [(1, a)] ∧ (Map.insert [(1, a)] k b).get k = some b := by
  have h1 : ((1 : Nat) != k) = true := by simpa using Ne.symm hk
  simp [Map.insert, Map.remove, Map.get, h1]

theorem rounds_session (env : Env) : ∀ n < 2 ^ 32, session32 false env (rounds n) = some (⟨[(1, firstDfa)], [], [], (n + 2) % 2 ^ 32⟩, roundsHistory n)
  | 0, _ => by
    have : call32 false env .init (.loadDfa firstText) = some (⟨[(1, firstDfa)], [], [], 2⟩, .loaded (.ok 1)) := by
      unfold call32
      simp only [call, load_first]
      rfl
    simp only [rounds, session32, Option.bind_eq_bind, Option.bind_some, this]
    rfl
  | n + 1, hn => by
    have ih := rounds_session env n (by omega)
    have hk : (n + 2) % 2 ^ 32 ≠ 1 := by omega
    have h1 := load32 env [(1, firstDfa)] ((n + 2) % 2 ^ 32) (Nat.mod_lt _ (by decide))
    obtain ⟨e1, e2⟩ := remove_only _ hk firstDfa otherDfa
    have e3 : ((n + 2) % 2 ^ 32 + 1) % 2 ^ 32 = (n + 1 + 2) % 2 ^ 32 := by omega
    have h2 : call32 false env ⟨Map.insert [(1, firstDfa)] ((n + 2) % 2 ^ 32) otherDfa, [], [], ((n + 2) % 2 ^ 32 + 1) % 2 ^ 32⟩
        (.deleteDfa ((n + 2) % 2 ^ 32)) = some (⟨[(1, firstDfa)], [], [], (n + 1 + 2) % 2 ^ 32⟩, .flag true) := by
      unfold call32
      simp only [call, deleteDfa, e1, e2, e3, Option.bind_eq_bind, Option.bind_some, keyLimit]
      rw [if_pos (Nat.mod_lt _ (by decide))]
      rfl
    simp only [rounds, session32, ih, Option.bind_eq_bind, Option.bind_some, h1, Option.pure_def, h2]
    rfl

theorem rounds_live : ∀ n < 2 ^ 32, Live (roundsHistory n) .dfa 1
  | 0, _ => .new rfl
  | n + 1, hn => by
    refine .keep (.keep (rounds_live n (by omega)) (by simp [removed])) ?_
    simp only [removed, ne_eq, Option.some.injEq, Prod.mk.injEq, true_and]
    omega

/-- **C101, the limit** As the page is built, C53 and C54 fail after 2^32 handles: a DFA is loaded and gets the handle 1, which is never deleted;
after another 2^32 - 1 DFAs have been loaded and deleted, loading a DFA returns the handle 1 again, and the first DFA is lost. -/
theorem C101_overwritten (env : Env) (canvas : Str) (hc : env.canvas canvas = true) :
    ∃ cs s h, session32 false env cs = some (s, h) ∧ h.getLast? = some (.loadDfa firstText, .loaded (.ok 1)) ∧ Live h .dfa 1 ∧
      (session32 false env (.drawDfa 1 canvas :: cs)).map (fun x => x.2.head?.map (·.2)) = some (some (.drewDfa (some firstDfa))) ∧
      (session32 false env (.drawDfa 1 canvas :: .loadDfa otherText :: cs)).map (fun x => (x.2.take 2).map (·.2)) =
        some [.drewDfa (some otherDfa), .loaded (.ok 1)] := by
  have key : ∀ n < 2 ^ 32, (n + 2) % 2 ^ 32 = 1 → ∃ cs s h, session32 false env cs = some (s, h) ∧
      h.getLast? = some (.loadDfa firstText, .loaded (.ok 1)) ∧ Live h .dfa 1 ∧
      (session32 false env (.drawDfa 1 canvas :: cs)).map (fun x => x.2.head?.map (·.2)) = some (some (.drewDfa (some firstDfa))) ∧
      (session32 false env (.drawDfa 1 canvas :: .loadDfa otherText :: cs)).map (fun x => (x.2.take 2).map (·.2)) =
        some [.drewDfa (some otherDfa), .loaded (.ok 1)] := by
    intro n hn h1
    have hs := rounds_session env n hn
    refine ⟨rounds n, _, _, hs, ?_, rounds_live n hn, ?_, ?_⟩
    · clear hs h1 hn
      induction n with
      | zero => rfl
      | succ n ih =>
        simp only [roundsHistory, List.getLast?_cons, ih, Option.getD_some]
    · rw [h1] at hs
      have : call32 false env ⟨[(1, firstDfa)], [], [], 1⟩ (.drawDfa 1 canvas) = some (⟨[(1, firstDfa)], [], [], 1⟩, .drewDfa (some firstDfa)) := by
        simp [call32, call, drawDfa, Map.get, hc, keyLimit]
      simp only [session32, hs, Option.bind_eq_bind, Option.bind_some, this]
      rfl
    · rw [h1] at hs
      have h2 := load32 env [(1, firstDfa)] 1 (by decide)
      have : call32 false env ⟨Map.insert [(1, firstDfa)] 1 otherDfa, [], [], (1 + 1) % 2 ^ 32⟩ (.drawDfa 1 canvas) =
          some (⟨Map.insert [(1, firstDfa)] 1 otherDfa, [], [], (1 + 1) % 2 ^ 32⟩, .drewDfa (some otherDfa)) := by
        simp [call32, call, drawDfa, Map.get, Map.insert, hc, keyLimit]
      simp only [session32, hs, Option.bind_eq_bind, Option.bind_some, h2, Option.pure_def, this]
      rfl
  exact key (2 ^ 32 - 1) (by decide) (by decide)

example : page.canvas c!"canvas" = true ∧ firstDfa.Lang [c!"a"] ∧ ¬ otherDfa.Lang [c!"a"] := by
  refine ⟨by decide, ?_, ?_⟩
  · rw [← C01_dfa_accepts_iff _ (Dfa.wf_of_wfB (by decide))]
    decide
  · rw [← C01_dfa_accepts_iff _ (Dfa.wf_of_wfB (by decide))]
    decide

end Dandy
