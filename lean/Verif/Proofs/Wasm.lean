import Verif.Spec.Wasm
import Verif.Proofs.Cli
import Verif.Proofs.History
import Verif.Props.Cli
import Verif.Props.Tables
import Verif.Props.History
/-! # Invariants of the wasm store -/

namespace Dandy
namespace Wasm
open Cli (AutomataType Automata IsTextOf)
open Cli.Automata (load)
open TableText (Name)

section maps
variable {α : Type}

theorem get_cons (p : Nat × α) (m : Map α) (l : Nat) : Map.get (p :: m) l = if l = p.1 then some p.2 else m.get l := by
  unfold Map.get
  rw [List.find?_cons]
  by_cases h : l = p.1
  · simp [h]
  · have : (p.1 == l) = false := by simp [Ne.symm h]
    simp [this, h]

theorem get_remove (m : Map α) (k l : Nat) : (m.remove k).get l = if l = k then none else m.get l := by
  induction m with
  | nil => simp [Map.remove, Map.get]
  | cons p m ih =>
    have e : Map.remove (p :: m) k = if p.1 != k then p :: Map.remove m k else Map.remove m k := by
      simp only [Map.remove, List.filter_cons]
    rw [e, get_cons]
    by_cases h1 : p.1 = k
    · subst h1
      simp only [bne_self_eq_false, Bool.false_eq_true, if_false]
      rw [ih]
      by_cases h : l = p.1 <;> simp [h]
    · have : (p.1 != k) = true := by simp [h1]
      rw [if_pos this, get_cons, ih]
      by_cases h : l = p.1
      · subst h; simp [h1]
      · simp [h]

theorem get_insert (m : Map α) (k l : Nat) (a : α) : (m.insert k a).get l = if l = k then some a else m.get l := by
  unfold Map.insert
  rw [get_cons, get_remove]
  by_cases h : l = k <;> simp [h]

theorem get_put (m : Map α) (k l : Nat) (a : α) :
    (Map.put m k a).get l = if l = k then (m.get k).map (fun _ => a) else m.get l := by
  induction m with
  | nil => simp [Map.put, Map.get]
  | cons p m ih =>
    have e : Map.put (p :: m) k a = (if p.1 == k then (p.1, a) else p) :: Map.put m k a := rfl
    rw [e, get_cons, ih, get_cons, get_cons]
    by_cases h1 : p.1 = k
    · subst h1
      by_cases h : l = p.1 <;> simp [h]
    · have : (p.1 == k) = false := by simp [h1]
      simp only [this]
      by_cases h : l = p.1
      · subst h; simp [h1]
      · simp [h, Ne.symm h1]

theorem remove_absent {m : Map α} {k : Nat} (h : m.get k = none) : m.remove k = m := by
  unfold Map.remove
  rw [List.filter_eq_self]
  intro p hp
  unfold Map.get at h
  rw [Option.map_eq_none_iff, List.find?_eq_none] at h
  have := h p hp
  simp only [beq_iff_eq] at this
  simp [this]

end maps

/-- What a handle stands for. -/
def Store.obj (s : Store) : AutomataType → Nat → Option Automata
  | .dfa, k => (s.dfas.get k).map .dfa
  | .nfa, k => (s.nfas.get k).map .nfa
  | .regex, k => (s.regexes.get k).map .regex

/-- How a new object comes about. -/
def NewFrom (env : Env) (s : Store) (a : Automata) : Call → Prop
  | .loadDfa t => load env.cl t .dfa = .ok a
  | .loadNfa t => load env.cl t .nfa = .ok a
  | .loadRegex t => load env.cl t .regex = .ok a
  | .regexToNfa k => ∃ t, s.obj .regex k = some (.regex t) ∧ a = .nfa t.toNfa
  | .dfaToNfa k => ∃ d, s.obj .dfa k = some (.dfa d) ∧ a = .nfa d.toNfa
  | .nfaToDfa k => ∃ n d, s.obj .nfa k = some (.nfa n) ∧ n.toDfa = some d ∧ a = .dfa d
  | _ => False

/-- The effect of a call on the objects. -/
structure Effect (env : Env) (s : Store) (e : Call × Result) (s' : Store) : Prop where
  key : ∀ ty k, created e = some (ty, k) → k = s.nextKey ∧ ∃ a, s'.obj ty k = some a ∧ a.getType = ty ∧ NewFrom env s a e.1
  next : s'.nextKey = if (created e).isSome then s.nextKey + 1 else s.nextKey
  gone : ∀ ty k, removed e = some (ty, k) → created e ≠ some (ty, k) → s'.obj ty k = none
  kept : ∀ ty k, created e ≠ some (ty, k) → removed e ≠ some (ty, k) → s'.obj ty k = s.obj ty k ∨
    ∃ o d m, e.1 = .minimizeDfa k o ∧ ty = .dfa ∧ s.obj .dfa k = some (.dfa d) ∧ d.minimize o.u o.m o.k = some m ∧
      s'.obj .dfa k = some (.dfa m)
  fail : ¬ e.2.Success → s' = s

theorem Effect.same (env : Env) (s : Store) (c : Call) (r : Result) (h1 : created (c, r) = none) (h2 : removed (c, r) = none) :
    Effect env s (c, r) s where
  key ty k h := by rw [h1] at h; cases h
  next := by rw [h1]; rfl
  gone ty k h := by rw [h2] at h; cases h
  kept ty k _ _ := Or.inl rfl
  fail _ := rfl

theorem obj_pushNfa (s : Store) (n : Nfa) (ty : AutomataType) (k : Nat) :
    (pushNfa s n).2.obj ty k = if ty = .nfa ∧ k = s.nextKey then some (.nfa n) else s.obj ty k := by
  cases ty with
  | dfa => simp [pushNfa, genKey, Store.obj]
  | regex => simp [pushNfa, genKey, Store.obj]
  | nfa =>
    simp only [pushNfa, genKey, Store.obj, get_insert]
    by_cases h : k = s.nextKey <;> simp [h]

theorem obj_pushDfa (s : Store) (d : Dfa) (ty : AutomataType) (k : Nat) :
    (pushDfa s d).2.obj ty k = if ty = .dfa ∧ k = s.nextKey then some (.dfa d) else s.obj ty k := by
  cases ty with
  | nfa => simp [pushDfa, genKey, Store.obj]
  | regex => simp [pushDfa, genKey, Store.obj]
  | dfa =>
    simp only [pushDfa, genKey, Store.obj, get_insert]
    by_cases h : k = s.nextKey <;> simp [h]

theorem obj_pushRegex (s : Store) (t : RegexTree) (ty : AutomataType) (k : Nat) :
    (pushRegex s t).2.obj ty k = if ty = .regex ∧ k = s.nextKey then some (.regex t) else s.obj ty k := by
  cases ty with
  | nfa => simp [pushRegex, genKey, Store.obj]
  | dfa => simp [pushRegex, genKey, Store.obj]
  | regex =>
    simp only [pushRegex, genKey, Store.obj, get_insert]
    by_cases h : k = s.nextKey <;> simp [h]

/-- A call that only creates an object. -/
theorem Effect.push {env : Env} {s s' : Store} {c : Call} {r : Result} {ty : AutomataType} {a : Automata}
    (h1 : created (c, r) = some (ty, s.nextKey)) (h2 : removed (c, r) = none) (hn : s'.nextKey = s.nextKey + 1)
    (ho : ∀ ty' k, s'.obj ty' k = if ty' = ty ∧ k = s.nextKey then some a else s.obj ty' k) (ht : a.getType = ty)
    (hf : NewFrom env s a c) (hs : r.Success) : Effect env s (c, r) s' where
  key ty' k h := by
    rw [h1] at h
    simp only [Option.some.injEq, Prod.mk.injEq] at h
    obtain ⟨rfl, rfl⟩ := h
    exact ⟨rfl, a, by rw [ho]; simp, ht, hf⟩
  next := by rw [h1]; exact hn
  gone ty k h := by rw [h2] at h; cases h
  kept ty' k h _ := by
    left
    rw [ho, if_neg]
    rintro ⟨rfl, rfl⟩
    exact h h1
  fail h := absurd hs h

theorem obj_remove_dfa (s : Store) (l : Nat) (ty : AutomataType) (k : Nat) :
    ({ s with dfas := s.dfas.remove l } : Store).obj ty k = if ty = .dfa ∧ k = l then none else s.obj ty k := by
  cases ty with
  | nfa => simp [Store.obj]
  | regex => simp [Store.obj]
  | dfa => simp only [Store.obj, get_remove]; by_cases h : k = l <;> simp [h]

theorem obj_remove_nfa (s : Store) (l : Nat) (ty : AutomataType) (k : Nat) :
    ({ s with nfas := s.nfas.remove l } : Store).obj ty k = if ty = .nfa ∧ k = l then none else s.obj ty k := by
  cases ty with
  | dfa => simp [Store.obj]
  | regex => simp [Store.obj]
  | nfa => simp only [Store.obj, get_remove]; by_cases h : k = l <;> simp [h]

theorem obj_remove_regex (s : Store) (l : Nat) (ty : AutomataType) (k : Nat) :
    ({ s with regexes := s.regexes.remove l } : Store).obj ty k = if ty = .regex ∧ k = l then none else s.obj ty k := by
  cases ty with
  | dfa => simp [Store.obj]
  | nfa => simp [Store.obj]
  | regex => simp only [Store.obj, get_remove]; by_cases h : k = l <;> simp [h]

/-- A call that deletes an object. -/
theorem Effect.delete {env : Env} {s s' : Store} {c : Call} {r : Result} {ty : AutomataType} {l : Nat}
    (h1 : created (c, r) = none) (h2 : removed (c, r) = some (ty, l)) (hn : s'.nextKey = s.nextKey)
    (ho : ∀ ty' k, s'.obj ty' k = if ty' = ty ∧ k = l then none else s.obj ty' k) (hs : r.Success) : Effect env s (c, r) s' where
  key ty' k h := by rw [h1] at h; cases h
  next := by rw [h1]; exact hn
  gone ty' k h _ := by
    rw [h2] at h
    simp only [Option.some.injEq, Prod.mk.injEq] at h
    obtain ⟨rfl, rfl⟩ := h
    rw [ho]; simp
  kept ty' k _ h := by
    left
    rw [ho, if_neg]
    rintro ⟨rfl, rfl⟩
    exact h h2
  fail h := absurd hs h

theorem effect_regexToNfa (env : Env) (s : Store) (k : Nat) :
    Effect env s (.regexToNfa k, (regexToNfa s k).2) (regexToNfa s k).1 ∧
    ((regexToNfa s k).2.Success ↔ s.obj .regex k ≠ none) := by
  unfold regexToNfa
  cases h : s.regexes.get k with
  | none =>
    dsimp only
    refine ⟨?_, by simp [Result.Success, Store.obj, h]⟩
    rw [remove_absent h]
    exact Effect.same env s _ _ rfl rfl
  | some t =>
    refine ⟨?_, by simp [Result.Success, Store.obj, h]⟩
    have e : (pushNfa { s with regexes := s.regexes.remove k } t.toNfa).1 = s.nextKey := rfl
    refine { key := ?_, next := rfl, gone := ?_, kept := ?_, fail := ?_ }
    · intro ty l hc
      simp only [created, Option.some.injEq, Prod.mk.injEq] at hc
      obtain ⟨rfl, rfl⟩ := hc
      refine ⟨rfl, .nfa t.toNfa, ?_, rfl, t, by simp [Store.obj, h], rfl⟩
      rw [obj_pushNfa]; simp [e]
    · intro ty l hr _
      simp only [removed, Option.some.injEq, Prod.mk.injEq] at hr
      obtain ⟨rfl, rfl⟩ := hr
      rw [obj_pushNfa, obj_remove_regex]; simp
    · intro ty l hc hr
      left
      rw [obj_pushNfa, obj_remove_regex, if_neg, if_neg]
      · rintro ⟨rfl, rfl⟩; exact hr rfl
      · rintro ⟨rfl, rfl⟩; exact hc rfl
    · intro hs; exact absurd (by simp [Result.Success]) hs

theorem obj_dfa {s : Store} {k : Nat} : s.obj .dfa k = none ↔ s.dfas.get k = none := by simp [Store.obj]
theorem obj_nfa {s : Store} {k : Nat} : s.obj .nfa k = none ↔ s.nfas.get k = none := by simp [Store.obj]
theorem obj_regex {s : Store} {k : Nat} : s.obj .regex k = none ↔ s.regexes.get k = none := by simp [Store.obj]

theorem effect_minimizeDfa {env : Env} {s s' : Store} {k : Nat} {o : Cli.MinOrd} {r : Result} (h : minimizeDfa s k o = some (s', r)) :
    Effect env s (.minimizeDfa k o, r) s' ∧ (r.Success ↔ s.obj .dfa k ≠ none) := by
  unfold minimizeDfa at h
  cases hg : s.dfas.get k with
  | none =>
    rw [hg] at h
    cases h
    exact ⟨Effect.same env s _ _ rfl rfl, by simp [Result.Success, Store.obj, hg]⟩
  | some d =>
    rw [hg] at h
    dsimp only at h
    cases hm : d.minimize o.u o.m o.k with
    | none => rw [hm] at h; cases h
    | some m =>
      rw [hm] at h
      cases h
      refine ⟨?_, by simp [Result.Success, Store.obj, hg]⟩
      refine { key := ?_, next := rfl, gone := ?_, kept := ?_, fail := ?_ }
      · intro ty l hc; cases hc
      · intro ty l hr; cases hr
      · intro ty l _ _
        by_cases hl : ty = .dfa ∧ l = k
        · obtain ⟨rfl, rfl⟩ := hl
          exact Or.inr ⟨o, d, m, rfl, rfl, by simp [Store.obj, hg], hm, by simp [Store.obj, get_put, hg]⟩
        · left
          cases ty with
          | dfa =>
            have : l ≠ k := fun e => hl ⟨rfl, e⟩
            simp [Store.obj, get_put, this]
          | nfa => rfl
          | regex => rfl
      · intro hs; exact absurd rfl hs

theorem effect_dfaToNfa (env : Env) (s : Store) (k : Nat) :
    Effect env s (.dfaToNfa k, (dfaToNfa s k).2) (dfaToNfa s k).1 ∧ ((dfaToNfa s k).2.Success ↔ s.obj .dfa k ≠ none) := by
  unfold dfaToNfa
  cases h : s.dfas.get k with
  | none => exact ⟨Effect.same env s _ _ rfl rfl, by simp [Result.Success, Store.obj, h]⟩
  | some d =>
    exact ⟨Effect.push (ty := .nfa) (a := .nfa d.toNfa) rfl rfl rfl (obj_pushNfa s d.toNfa) rfl ⟨d, by simp [Store.obj, h], rfl⟩
      (by simp [Result.Success]), by simp [Result.Success, Store.obj, h]⟩

theorem effect_nfaToDfa {env : Env} {s s' : Store} {k : Nat} {r : Result} (h : nfaToDfa s k = some (s', r)) :
    Effect env s (.nfaToDfa k, r) s' ∧ (r.Success ↔ s.obj .nfa k ≠ none) := by
  unfold nfaToDfa at h
  cases hg : s.nfas.get k with
  | none =>
    rw [hg] at h
    cases h
    exact ⟨Effect.same env s _ _ rfl rfl, by simp [Result.Success, Store.obj, hg]⟩
  | some n =>
    rw [hg] at h
    dsimp only at h
    cases hm : n.toDfa with
    | none => rw [hm] at h; cases h
    | some d =>
      rw [hm] at h
      cases h
      exact ⟨Effect.push (ty := .dfa) (a := .dfa d) rfl rfl rfl (obj_pushDfa s d) rfl ⟨n, d, by simp [Store.obj, hg], hm, rfl⟩
        (by simp [Result.Success]), by simp [Result.Success, Store.obj, hg]⟩

theorem effect_deleteDfa (env : Env) (s : Store) (k : Nat) :
    Effect env s (.deleteDfa k, (deleteDfa s k).2) (deleteDfa s k).1 ∧ ((deleteDfa s k).2.Success ↔ s.obj .dfa k ≠ none) := by
  unfold deleteDfa
  cases h : s.dfas.get k with
  | none =>
    refine ⟨?_, by simp [Result.Success, Store.obj, h]⟩
    dsimp only
    rw [remove_absent h]
    exact Effect.same env s _ _ rfl rfl
  | some d => exact ⟨Effect.delete (ty := .dfa) (l := k) rfl rfl rfl (obj_remove_dfa s k) rfl, by simp [Result.Success, Store.obj, h]⟩

theorem effect_deleteNfa (env : Env) (s : Store) (k : Nat) :
    Effect env s (.deleteNfa k, (deleteNfa s k).2) (deleteNfa s k).1 ∧ ((deleteNfa s k).2.Success ↔ s.obj .nfa k ≠ none) := by
  unfold deleteNfa
  cases h : s.nfas.get k with
  | none =>
    refine ⟨?_, by simp [Result.Success, Store.obj, h]⟩
    dsimp only
    rw [remove_absent h]
    exact Effect.same env s _ _ rfl rfl
  | some d => exact ⟨Effect.delete (ty := .nfa) (l := k) rfl rfl rfl (obj_remove_nfa s k) rfl, by simp [Result.Success, Store.obj, h]⟩

theorem effect_deleteRegex (env : Env) (s : Store) (k : Nat) :
    Effect env s (.deleteRegex k, (deleteRegex s k).2) (deleteRegex s k).1 ∧
    ((deleteRegex s k).2.Success ↔ s.obj .regex k ≠ none) := by
  unfold deleteRegex
  cases h : s.regexes.get k with
  | none =>
    refine ⟨?_, by simp [Result.Success, Store.obj, h]⟩
    dsimp only
    rw [remove_absent h]
    exact Effect.same env s _ _ rfl rfl
  | some d =>
    exact ⟨Effect.delete (ty := .regex) (l := k) rfl rfl rfl (obj_remove_regex s k) rfl, by simp [Result.Success, Store.obj, h]⟩

theorem effect_loadDfa (env : Env) (s : Store) (t : Str) :
    Effect env s (.loadDfa t, (loadDfa s t).2) (loadDfa s t).1 ∧
    ((loadDfa s t).2.Success ↔ ∃ a, load env.cl t .dfa = .ok a) := by
  have hl := @Cli.Automata.load_dfa_iff env.cl t
  unfold loadDfa
  simp only [← FaE.dfa_ok] at hl
  generalize hx : FaE.dfa t = x at *
  cases x with
  | error e' =>
    refine ⟨Effect.same env s _ _ rfl rfl, ?_⟩
    simp [Result.Success, hl]
  | ok p =>
    dsimp only
    generalize hy : Validate.dfa p = y at *
    cases y with
    | error e =>
      refine ⟨Effect.same env s _ _ rfl rfl, ?_⟩
      simp [Result.Success, hl, hy]
    | ok d =>
      have h1 : load env.cl t .dfa = .ok (.dfa d) := hl.2 ⟨p, d, rfl, hy, rfl⟩
      exact ⟨Effect.push (ty := .dfa) (a := .dfa d) rfl rfl rfl (obj_pushDfa s d) rfl h1 ⟨_, rfl⟩,
        by simp [Result.Success, h1]⟩

theorem effect_loadNfa (env : Env) (s : Store) (t : Str) :
    Effect env s (.loadNfa t, (loadNfa s t).2) (loadNfa s t).1 ∧
    ((loadNfa s t).2.Success ↔ ∃ a, load env.cl t .nfa = .ok a) := by
  have hl := @Cli.Automata.load_nfa_iff env.cl t
  unfold loadNfa
  simp only [← FaE.nfa_ok] at hl
  generalize hx : FaE.nfa t = x at *
  cases x with
  | error e' =>
    refine ⟨Effect.same env s _ _ rfl rfl, ?_⟩
    simp [Result.Success, hl]
  | ok p =>
    dsimp only
    generalize hy : Validate.nfa p = y at *
    cases y with
    | error e =>
      refine ⟨Effect.same env s _ _ rfl rfl, ?_⟩
      simp [Result.Success, hl, hy]
    | ok d =>
      have h1 : load env.cl t .nfa = .ok (.nfa d) := hl.2 ⟨p, d, rfl, hy, rfl⟩
      exact ⟨Effect.push (ty := .nfa) (a := .nfa d) rfl rfl rfl (obj_pushNfa s d) rfl h1 ⟨_, rfl⟩,
        by simp [Result.Success, h1]⟩

theorem effect_loadRegex (env : Env) (s : Store) (t : Str) :
    Effect env s (.loadRegex t, (loadRegex env s t).2) (loadRegex env s t).1 ∧
    ((loadRegex env s t).2.Success ↔ ∃ a, load env.cl t .regex = .ok a) := by
  have hl := @Cli.Automata.load_regex_iff env.cl t
  unfold loadRegex
  simp only [← RegexE.regex_ok] at hl
  generalize hx : RegexE.regex env.cl t = x at *
  cases x with
  | error e' =>
    refine ⟨Effect.same env s _ _ rfl rfl, ?_⟩
    simp [Result.Success, hl]
  | ok d =>
    have h1 : load env.cl t .regex = .ok (.regex d) := hl.2 ⟨d, rfl, rfl⟩
    exact ⟨Effect.push (ty := .regex) (a := .regex d) rfl rfl rfl (obj_pushRegex s d) rfl h1 ⟨_, rfl⟩,
      by simp [Result.Success, h1]⟩

/-- All objects are valid and have readable state names. -/
def GoodObj : Automata → Prop
  | .dfa d => DGood Name (fun _ => True) d
  | .nfa n => NGood Name (fun _ => True) n
  | .regex _ => True

theorem GoodObj.valid {a : Automata} (h : GoodObj a) : a.Valid := by
  cases a with
  | dfa d => exact h.1
  | nfa n => exact h.1
  | regex t => trivial

theorem uses_one {s : Store} {ty : AutomataType} {k : Nat} {P : Prop} (hP : P) :
    s.obj ty k ≠ none ↔ (∀ p ∈ [(ty, k)], s.obj p.1 p.2 ≠ none) ∧ P := by simp [hP]

theorem some_pair {x : Store × Result} {s' : Store} {r : Result} (h : some x = some (s', r)) : x.1 = s' ∧ x.2 = r := by
  cases h; exact ⟨rfl, rfl⟩

theorem call_effect {env : Env} (hcl : Segmentation env.cl) {s s' : Store} {c : Call} {r : Result} (h : call env s c = some (s', r)) :
    Effect env s (c, r) s' ∧ (r.Success ↔ (∀ p ∈ uses c, s.obj p.1 p.2 ≠ none) ∧ c.Needs env) := by
  have loaded : ∀ ty t, (∃ a, load env.cl t ty = .ok a) ↔
      (∀ p ∈ ([] : List (AutomataType × Nat)), s.obj p.1 p.2 ≠ none) ∧ ∃ a : Automata, a.getType = ty ∧ IsTextOf env.cl t a := by
    intro ty t
    rw [C61_load_succeeds_iff env.cl hcl t ty]
    simp
  cases c with
  | regexToNfa k =>
    obtain ⟨rfl, rfl⟩ := some_pair (x := regexToNfa s k) h
    obtain ⟨h1, h2⟩ := effect_regexToNfa env s k
    exact ⟨h1, h2.trans (uses_one trivial)⟩
  | minimizeDfa k o =>
    obtain ⟨h1, h2⟩ := effect_minimizeDfa (env := env) h
    exact ⟨h1, h2.trans (uses_one trivial)⟩
  | drawDfa k id =>
    cases h
    refine ⟨?_, ?_⟩
    · refine Effect.same env s _ _ ?_ ?_ <;> (unfold drawDfa; cases s.dfas.get k <;> dsimp only) <;>
        first | rfl | (split <;> rfl)
    · unfold drawDfa
      cases h : s.dfas.get k with
      | none => simp [Result.Success, uses, Store.obj, h]
      | some d => cases hc : env.canvas id <;> simp [Result.Success, uses, Store.obj, h, hc, Call.Needs]
  | drawNfa k id =>
    cases h
    refine ⟨?_, ?_⟩
    · refine Effect.same env s _ _ ?_ ?_ <;> (unfold drawNfa; cases s.nfas.get k <;> dsimp only) <;>
        first | rfl | (split <;> rfl)
    · unfold drawNfa
      cases h : s.nfas.get k with
      | none => simp [Result.Success, uses, Store.obj, h]
      | some d => cases hc : env.canvas id <;> simp [Result.Success, uses, Store.obj, h, hc, Call.Needs]
  | checkDfaEq k l =>
    have hd : ∃ r', checkDfaEq s k l = some r' ∧ s' = s ∧ r = r' := by
      dsimp only [call] at h
      cases hx : checkDfaEq s k l with
      | none => rw [hx] at h; cases h
      | some x => rw [hx] at h; cases h; exact ⟨_, rfl, rfl, rfl⟩
    obtain ⟨_, hr, rfl, rfl⟩ := hd
    unfold checkDfaEq at hr
    cases h1 : s'.dfas.get k with
    | none =>
      rw [h1] at hr; cases hr
      exact ⟨Effect.same env s' _ _ rfl rfl, by simp [Result.Success, uses, Store.obj, h1]⟩
    | some d =>
      cases h2 : s'.dfas.get l with
      | none =>
        rw [h1, h2] at hr; cases hr
        exact ⟨Effect.same env s' _ _ rfl rfl, by simp [Result.Success, uses, Store.obj, h2]⟩
      | some d' =>
        rw [h1, h2] at hr
        dsimp only at hr
        cases h3 : d.equivalentTo d' with
        | none => rw [h3] at hr; cases hr
        | some b =>
          rw [h3] at hr; cases hr
          exact ⟨Effect.same env s' _ _ rfl rfl, by simp [Result.Success, uses, Store.obj, h1, h2, Call.Needs]⟩
  | checkNfaEq k l =>
    have hd : ∃ r', checkNfaEq s k l = some r' ∧ s' = s ∧ r = r' := by
      dsimp only [call] at h
      cases hx : checkNfaEq s k l with
      | none => rw [hx] at h; cases h
      | some x => rw [hx] at h; cases h; exact ⟨_, rfl, rfl, rfl⟩
    obtain ⟨_, hr, rfl, rfl⟩ := hd
    unfold checkNfaEq at hr
    cases h1 : s'.nfas.get k with
    | none =>
      rw [h1] at hr; cases hr
      exact ⟨Effect.same env s' _ _ rfl rfl, by simp [Result.Success, uses, Store.obj, h1]⟩
    | some d =>
      cases h2 : s'.nfas.get l with
      | none =>
        rw [h1, h2] at hr; cases hr
        exact ⟨Effect.same env s' _ _ rfl rfl, by simp [Result.Success, uses, Store.obj, h2]⟩
      | some d' =>
        rw [h1, h2] at hr
        dsimp only at hr
        cases h3 : d.equivalentTo d' with
        | none => rw [h3] at hr; cases hr
        | some b =>
          rw [h3] at hr; cases hr
          exact ⟨Effect.same env s' _ _ rfl rfl, by simp [Result.Success, uses, Store.obj, h1, h2, Call.Needs]⟩
  | dfaToNfa k =>
    obtain ⟨rfl, rfl⟩ := some_pair (x := dfaToNfa s k) h
    obtain ⟨h1, h2⟩ := effect_dfaToNfa env s k
    exact ⟨h1, h2.trans (uses_one trivial)⟩
  | nfaToDfa k =>
    obtain ⟨h1, h2⟩ := effect_nfaToDfa (env := env) h
    exact ⟨h1, h2.trans (uses_one trivial)⟩
  | dfaToTable k =>
    dsimp only [call] at h
    unfold dfaToTable at h
    cases h1 : s.dfas.get k with
    | none =>
      rw [h1] at h; cases h
      exact ⟨Effect.same env s _ _ rfl rfl, by simp [Result.Success, uses, Store.obj, h1]⟩
    | some d =>
      rw [h1] at h
      dsimp only at h
      cases h2 : d.toTable with
      | none => rw [h2] at h; cases h
      | some t =>
        rw [h2] at h; cases h
        exact ⟨Effect.same env s _ _ rfl rfl, by simp [Result.Success, uses, Store.obj, h1, Call.Needs]⟩
  | nfaToTable k =>
    dsimp only [call] at h
    unfold nfaToTable at h
    cases h1 : s.nfas.get k with
    | none =>
      rw [h1] at h; cases h
      exact ⟨Effect.same env s _ _ rfl rfl, by simp [Result.Success, uses, Store.obj, h1]⟩
    | some d =>
      rw [h1] at h
      dsimp only at h
      cases h2 : d.toTable with
      | none => rw [h2] at h; cases h
      | some t =>
        rw [h2] at h; cases h
        exact ⟨Effect.same env s _ _ rfl rfl, by simp [Result.Success, uses, Store.obj, h1, Call.Needs]⟩
  | deleteRegex k =>
    obtain ⟨rfl, rfl⟩ := some_pair (x := deleteRegex s k) h
    obtain ⟨h1, h2⟩ := effect_deleteRegex env s k
    exact ⟨h1, h2.trans (uses_one trivial)⟩
  | deleteDfa k =>
    obtain ⟨rfl, rfl⟩ := some_pair (x := deleteDfa s k) h
    obtain ⟨h1, h2⟩ := effect_deleteDfa env s k
    exact ⟨h1, h2.trans (uses_one trivial)⟩
  | deleteNfa k =>
    obtain ⟨rfl, rfl⟩ := some_pair (x := deleteNfa s k) h
    obtain ⟨h1, h2⟩ := effect_deleteNfa env s k
    exact ⟨h1, h2.trans (uses_one trivial)⟩
  | loadRegex t =>
    have e := Option.some.inj h
    obtain ⟨h1, h2⟩ := effect_loadRegex env s t
    have e1 : (loadRegex env s t).1 = s' := congrArg Prod.fst e
    have e2 : (loadRegex env s t).2 = r := congrArg Prod.snd e
    rw [e1, e2] at h1
    rw [e2] at h2
    exact ⟨h1, h2.trans (loaded .regex t)⟩
  | loadDfa t =>
    have e := Option.some.inj h
    obtain ⟨h1, h2⟩ := effect_loadDfa env s t
    have e1 : (loadDfa s t).1 = s' := congrArg Prod.fst e
    have e2 : (loadDfa s t).2 = r := congrArg Prod.snd e
    rw [e1, e2] at h1
    rw [e2] at h2
    exact ⟨h1, h2.trans (loaded .dfa t)⟩
  | loadNfa t =>
    have e := Option.some.inj h
    obtain ⟨h1, h2⟩ := effect_loadNfa env s t
    have e1 : (loadNfa s t).1 = s' := congrArg Prod.fst e
    have e2 : (loadNfa s t).2 = r := congrArg Prod.snd e
    rw [e1, e2] at h1
    rw [e2] at h2
    exact ⟨h1, h2.trans (loaded .nfa t)⟩

theorem hasAlphabet_unique {a : Automata} {l l' : List Str} (h : a.HasAlphabet l) (h' : a.HasAlphabet l') : l = l' := by
  cases a with
  | dfa d => exact Eq.trans h (Eq.symm h')
  | nfa n => exact Eq.trans h (Eq.symm h')
  | regex t =>
    obtain ⟨h1, h2, h3⟩ := h
    obtain ⟨h4, h5, h6⟩ := h'
    refine List.Perm.eq_of_pairwise ?_ h3 h6 ((List.perm_ext_iff_of_nodup h1 h4).2 (fun g => (h2 g).trans (h5 g).symm))
    intro a b _ _ hab hba
    omega

/-- What holds after every history. -/
structure Inv (env : Env) (h : List (Call × Result)) (s : Store) : Prop where
  good : ∀ ty k a, s.obj ty k = some a → GoodObj a ∧ a.getType = ty
  lt : ∀ ty k, s.obj ty k ≠ none → k < s.nextKey
  pos : 1 ≤ s.nextKey
  keys : ∀ p ∈ h.filterMap created, 1 ≤ p.2 ∧ p.2 < s.nextKey
  sorted : (h.filterMap created).Pairwise (fun p q => q.2 < p.2)
  live : ∀ ty k, Live h ty k ↔ s.obj ty k ≠ none
  means : ∀ ty k al L, Means env.cl h ty k al L → ∃ a, s.obj ty k = some a ∧ a.HasAlphabet al ∧ ∀ w, a.Lang w ↔ L w
  meaning : ∀ ty k, s.obj ty k ≠ none → ∃ al L, Means env.cl h ty k al L

theorem inv_init (env : Env) : Inv env [] .init where
  good ty k a h := by cases ty <;> cases h
  lt ty k h := by cases ty <;> exact absurd rfl h
  pos := Nat.le_refl 1
  keys p hp := by cases hp
  sorted := List.Pairwise.nil
  live ty k := by
    constructor
    · intro h; cases h
    · intro h; cases ty <;> exact absurd rfl h
  means ty k al L h := by cases h
  meaning ty k h := by cases ty <;> exact absurd rfl h

theorem good_new {env : Env} {s : Store} {c : Call} {a : Automata} (hg : ∀ ty k a, s.obj ty k = some a → GoodObj a ∧ a.getType = ty)
    (h : NewFrom env s a c) : GoodObj a := by
  cases c with
  | loadDfa t =>
    obtain ⟨p, d, h1, h2, rfl⟩ := Cli.Automata.load_dfa_iff.1 h
    obtain ⟨e1, _, _, e4⟩ := C40_parsed t p d h1 h2
    exact ⟨e1, e4, trivial⟩
  | loadNfa t =>
    obtain ⟨p, d, h1, h2, rfl⟩ := Cli.Automata.load_nfa_iff.1 h
    obtain ⟨e1, _, e4⟩ := C41_parsed t p d h1 h2
    exact ⟨e1, e4, trivial⟩
  | loadRegex t =>
    obtain ⟨d, h1, rfl⟩ := Cli.Automata.load_regex_iff.1 h
    trivial
  | regexToNfa k =>
    obtain ⟨t, _, rfl⟩ := h
    refine ⟨C35_to_nfa_valid t, ?_, trivial⟩
    intro st hs
    obtain ⟨i, hi⟩ := List.mem_iff_getElem?.1 hs
    rw [((C35_to_nfa_states t).2.2 i st hi).1]
    exact name_num i
  | dfaToNfa k =>
    obtain ⟨d, h1, rfl⟩ := h
    exact toNfa_good (show DGood Name (fun _ => True) d from (hg _ _ _ h1).1)
  | nfaToDfa k =>
    obtain ⟨n, d, h1, h2, rfl⟩ := h
    exact toDfa_good name_closed (show NGood Name (fun _ => True) n from (hg _ _ _ h1).1) h2
  | _ => exact h.elim

theorem good_step {env : Env} (hcl : Segmentation env.cl) {s s' : Store} {c : Call} {r : Result}
    (hg : ∀ ty k a, s.obj ty k = some a → GoodObj a ∧ a.getType = ty) (hv : c.Valid) (hc : call env s c = some (s', r)) :
    ∀ ty k a, s'.obj ty k = some a → GoodObj a ∧ a.getType = ty := by
  obtain ⟨he, _⟩ := call_effect hcl hc
  intro ty k a ha
  by_cases h1 : created (c, r) = some (ty, k)
  · obtain ⟨_, a', h2, h3, h4⟩ := he.key _ _ h1
    rw [ha] at h2; cases h2
    exact ⟨good_new hg h4, h3⟩
  · by_cases h2 : removed (c, r) = some (ty, k)
    · rw [he.gone _ _ h2 h1] at ha; cases ha
    · rcases he.kept _ _ h1 h2 with h3 | ⟨o, d, m, h3, rfl, h4, h5, h6⟩
      · rw [h3] at ha; exact hg _ _ _ ha
      · rw [h6] at ha; cases ha
        dsimp only at h3
        subst h3
        have ho : o.Valid := hv
        exact ⟨minimize_good ho.u ho.m ho.k (show DGood Name (fun _ => True) d from (hg _ _ _ h4).1) h5, rfl⟩

theorem inv_step {env : Env} (hcl : Segmentation env.cl) {h : List (Call × Result)} {s s' : Store} {c : Call} {r : Result}
    (hi : Inv env h s) (hv : c.Valid) (hc : call env s c = some (s', r)) : Inv env ((c, r) :: h) s' := by
  obtain ⟨he, _⟩ := call_effect hcl hc
  have le : s.nextKey ≤ s'.nextKey := by rw [he.next]; split <;> omega
  have fresh : ∀ ty k, created (c, r) = some (ty, k) → s.obj ty k = none := by
    intro ty k h1
    obtain ⟨rfl, _⟩ := he.key _ _ h1
    by_contra h2
    exact absurd (hi.lt _ _ h2) (Nat.lt_irrefl _)
  have bump : ∀ ty k, created (c, r) = some (ty, k) → s'.nextKey = s.nextKey + 1 := by
    intro ty k h1; rw [he.next, h1]; rfl
  have minim : ∀ k o d m, c = .minimizeDfa k o → s.obj .dfa k = some (.dfa d) → d.minimize o.u o.m o.k = some m →
      DGood Name (fun _ => True) m ∧ m.alphabet = d.alphabet ∧ ∀ w, m.Lang w ↔ d.Lang w := by
    rintro k o d m rfl h1 h2
    have ho : o.Valid := hv
    have hd := (hi.good _ _ _ h1).1
    obtain ⟨m', e1, e2, e3, e4, _⟩ := ho.minimize hd.valid
    rw [h2] at e1; cases e1
    exact ⟨minimize_good ho.u ho.m ho.k hd h2, e3, e4⟩
  refine { good := ?_, lt := ?_, pos := le_trans hi.pos le, keys := ?_, sorted := ?_, live := ?_, means := ?_, meaning := ?_ }
  · exact good_step hcl hi.good hv hc
  · intro ty k ha
    by_cases h1 : created (c, r) = some (ty, k)
    · obtain ⟨rfl, _⟩ := he.key _ _ h1
      rw [bump _ _ h1]; omega
    · by_cases h2 : removed (c, r) = some (ty, k)
      · exact absurd (he.gone _ _ h2 h1) ha
      · rcases he.kept _ _ h1 h2 with h3 | ⟨o, d, m, h3, rfl, h4, h5, h6⟩
        · rw [h3] at ha; exact lt_of_lt_of_le (hi.lt _ _ ha) le
        · exact lt_of_lt_of_le (hi.lt _ _ (by rw [h4]; simp)) le
  · intro p hp
    rw [List.filterMap_cons] at hp
    cases h1 : created (c, r) with
    | none =>
      rw [h1] at hp
      obtain ⟨e1, e2⟩ := hi.keys p hp
      exact ⟨e1, lt_of_lt_of_le e2 le⟩
    | some q =>
      rw [h1] at hp
      rcases List.mem_cons.1 hp with rfl | hp
      · obtain ⟨e1, _⟩ := he.key _ _ h1
        rw [bump _ _ h1, e1]
        exact ⟨hi.pos, Nat.lt_succ_self _⟩
      · obtain ⟨e1, e2⟩ := hi.keys p hp
        exact ⟨e1, lt_of_lt_of_le e2 le⟩
  · rw [List.filterMap_cons]
    cases h1 : created (c, r) with
    | none => exact hi.sorted
    | some q =>
      refine List.pairwise_cons.2 ⟨?_, hi.sorted⟩
      intro p hp
      obtain ⟨e1, _⟩ := he.key _ _ h1
      rw [e1]
      exact (hi.keys p hp).2
  · intro ty k
    constructor
    · intro hl
      cases hl with
      | new h1 =>
        obtain ⟨_, a, h2, _⟩ := he.key _ _ h1
        rw [h2]; simp
      | keep h1 h2 =>
        have h3 := (hi.live _ _).1 h1
        have h4 : created (c, r) ≠ some (ty, k) := fun h4 => h3 (fresh _ _ h4)
        rcases he.kept _ _ h4 h2 with h5 | ⟨o, d, m, _, rfl, _, _, h6⟩
        · rw [h5]; exact h3
        · rw [h6]; simp
    · intro ha
      by_cases h1 : created (c, r) = some (ty, k)
      · exact .new h1
      · by_cases h2 : removed (c, r) = some (ty, k)
        · exact absurd (he.gone _ _ h2 h1) ha
        · refine .keep ((hi.live _ _).2 ?_) h2
          rcases he.kept _ _ h1 h2 with h3 | ⟨o, d, m, _, rfl, h4, _, _⟩
          · rw [← h3]; exact ha
          · rw [h4]; simp
  · have loadCase : ∀ t k ty b, created (c, r) = some (ty, k) → (∀ a, NewFrom env s a c → load env.cl t ty = .ok a) →
        b.getType = ty → IsTextOf env.cl t b → ∀ al, b.HasAlphabet al →
        ∃ a, s'.obj ty k = some a ∧ a.HasAlphabet al ∧ ∀ w, a.Lang w ↔ b.Lang w := by
      intro t k ty b h1 h2 h3 h4 al h5
      obtain ⟨_, a, e1, _, e3⟩ := he.key _ _ h1
      obtain ⟨_, _, _, e4⟩ := C61_load_content env.cl hcl t ty a (h2 a e3)
      obtain ⟨e5, e6⟩ := e4 b h3 h4
      exact ⟨a, e1, (e5 al).2 h5, e6⟩
    intro ty k al L hm
    generalize hh : (c, r) :: h = hist at hm
    cases hm with
    | loadDfa h1 =>
      cases hh
      exact loadCase _ k .dfa (.dfa _) rfl (fun a h => h) rfl h1 _ rfl
    | loadNfa h1 =>
      cases hh
      exact loadCase _ k .nfa (.nfa _) rfl (fun a h => h) rfl h1 _ rfl
    | loadRegex h1 h2 =>
      cases hh
      exact loadCase _ k .regex (.regex _) rfl (fun a h => h) rfl h1 _ h2
    | regexToNfa h1 =>
      cases hh
      obtain ⟨b, e1, e2, e3⟩ := hi.means _ _ _ _ h1
      obtain ⟨_, a, e4, _, t, e5, rfl⟩ := he.key .nfa k rfl
      rw [e1] at e5; cases e5
      obtain ⟨e6, e7, e8⟩ := C35_to_nfa_alphabet t
      refine ⟨_, e4, hasAlphabet_unique (a := .regex t) e2 ⟨e7, e6, e8⟩, fun w => ?_⟩
      exact (toNfa_lang t w).trans (e3 w)
    | dfaToNfa h1 =>
      cases hh
      obtain ⟨b, e1, e2, e3⟩ := hi.means _ _ _ _ h1
      obtain ⟨_, a, e4, _, d, e5, rfl⟩ := he.key .nfa k rfl
      rw [e1] at e5; cases e5
      have hd : d.WF := (hi.good _ _ _ e1).1.valid
      exact ⟨_, e4, e2, fun w => (C18_to_nfa_lang d hd w).2.1.trans (e3 w)⟩
    | nfaToDfa h1 =>
      cases hh
      obtain ⟨b, e1, e2, e3⟩ := hi.means _ _ _ _ h1
      obtain ⟨_, a, e4, _, n, d, e5, e6, rfl⟩ := he.key .dfa k rfl
      rw [e1] at e5; cases e5
      have hd : n.WF := (hi.good _ _ _ e1).1.valid
      obtain ⟨d', g1, _, g3, g4, _⟩ := C19_to_dfa n hd
      rw [e6] at g1; cases g1
      exact ⟨_, e4, Eq.trans e2 g3.symm, fun w => (g4 w).trans (e3 w)⟩
    | keep h1 h2 =>
      cases hh
      obtain ⟨b, e1, e2, e3⟩ := hi.means _ _ _ _ h1
      have h4 : created (c, r) ≠ some (ty, k) := fun h4 => by rw [fresh _ _ h4] at e1; cases e1
      rcases he.kept _ _ h4 h2 with h5 | ⟨o, d, m, h6, rfl, h7, h8, h9⟩
      · exact ⟨b, by rw [h5]; exact e1, e2, e3⟩
      · rw [e1] at h7; cases h7
        obtain ⟨_, g2, g3⟩ := minim k o d m h6 e1 h8
        exact ⟨_, h9, Eq.trans e2 g2.symm, fun w => (g3 w).trans (e3 w)⟩
  · intro ty k ha
    by_cases h1 : created (c, r) = some (ty, k)
    · obtain ⟨_, a, h2, h3, h4⟩ := he.key _ _ h1
      have hok : ∀ t ty, load env.cl t ty = .ok a → IsTextOf env.cl t a :=
        fun t ty e => (C61_load_content env.cl hcl t ty a e).2.2.1
      unfold created at h1
      split at h1
      all_goals first
        | (rename_i heq; cases heq; cases h1)
        | cases h1
      · obtain ⟨p, d, _, _, rfl⟩ := Cli.Automata.load_dfa_iff.1 h4
        exact ⟨_, _, .loadDfa (hok _ _ h4)⟩
      · obtain ⟨p, d, _, _, rfl⟩ := Cli.Automata.load_nfa_iff.1 h4
        exact ⟨_, _, .loadNfa (hok _ _ h4)⟩
      · obtain ⟨d, _, rfl⟩ := Cli.Automata.load_regex_iff.1 h4
        obtain ⟨e6, e7, e8⟩ := C35_to_nfa_alphabet d
        exact ⟨_, _, .loadRegex (hok _ _ h4) ⟨e7, e6, e8⟩⟩
      · obtain ⟨t, h5, _⟩ := h4
        obtain ⟨al, L, h6⟩ := hi.meaning _ _ (by rw [h5]; simp)
        exact ⟨al, L, .regexToNfa h6⟩
      · obtain ⟨t, h5, _⟩ := h4
        obtain ⟨al, L, h6⟩ := hi.meaning _ _ (by rw [h5]; simp)
        exact ⟨al, L, .dfaToNfa h6⟩
      · obtain ⟨t, _, h5, _⟩ := h4
        obtain ⟨al, L, h6⟩ := hi.meaning _ _ (by rw [h5]; simp)
        exact ⟨al, L, .nfaToDfa h6⟩
    · by_cases h2 : removed (c, r) = some (ty, k)
      · exact absurd (he.gone _ _ h2 h1) ha
      · have : s.obj ty k ≠ none := by
          rcases he.kept _ _ h1 h2 with h3 | ⟨o, d, m, _, rfl, h4, _, _⟩
          · rw [← h3]; exact ha
          · rw [h4]; simp
        obtain ⟨al, L, h6⟩ := hi.meaning _ _ this
        exact ⟨al, L, .keep h6 h2⟩

theorem obj_dfa_some {s : Store} {k : Nat} {d : Dfa} : s.obj .dfa k = some (.dfa d) ↔ s.dfas.get k = some d := by
  simp [Store.obj]

theorem obj_nfa_some {s : Store} {k : Nat} {n : Nfa} : s.obj .nfa k = some (.nfa n) ↔ s.nfas.get k = some n := by
  simp [Store.obj]

theorem obj_dfa_elim {s : Store} {k : Nat} {a : Automata} (h : s.obj .dfa k = some a) : ∃ d, s.dfas.get k = some d ∧ a = .dfa d := by
  simp only [Store.obj, Option.map_eq_some_iff] at h
  obtain ⟨d, h1, rfl⟩ := h
  exact ⟨d, h1, rfl⟩

theorem obj_nfa_elim {s : Store} {k : Nat} {a : Automata} (h : s.obj .nfa k = some a) : ∃ d, s.nfas.get k = some d ∧ a = .nfa d := by
  simp only [Store.obj, Option.map_eq_some_iff] at h
  obtain ⟨d, h1, rfl⟩ := h
  exact ⟨d, h1, rfl⟩

theorem call_total_good {env : Env} {s : Store} (hg : ∀ ty k a, s.obj ty k = some a → GoodObj a ∧ a.getType = ty) {c : Call} (hv : c.Valid) :
    ∃ s' r, call env s c = some (s', r) := by
  have hd : ∀ k d, s.dfas.get k = some d → d.WF := fun k d h => (hg _ _ _ (obj_dfa_some.2 h)).1.valid
  have hn : ∀ k n, s.nfas.get k = some n → n.WF := fun k n h => (hg _ _ _ (obj_nfa_some.2 h)).1.valid
  cases c with
  | minimizeDfa k o =>
    dsimp only [call]
    unfold minimizeDfa
    cases h1 : s.dfas.get k with
    | none => exact ⟨_, _, rfl⟩
    | some d =>
      have ho : o.Valid := hv
      obtain ⟨m, e, _⟩ := ho.minimize (hd k d h1)
      dsimp only
      rw [e]
      exact ⟨_, _, rfl⟩
  | checkDfaEq k l =>
    dsimp only [call]
    unfold checkDfaEq
    cases h1 : s.dfas.get k with
    | none => exact ⟨_, _, rfl⟩
    | some d =>
      cases h2 : s.dfas.get l with
      | none => exact ⟨_, _, rfl⟩
      | some d' =>
        obtain ⟨⟨b, e⟩, _⟩ := C11_dfa_equivalent_to d d' (hd k d h1) (hd l d' h2)
        dsimp only
        rw [e]
        exact ⟨_, _, rfl⟩
  | checkNfaEq k l =>
    dsimp only [call]
    unfold checkNfaEq
    cases h1 : s.nfas.get k with
    | none => exact ⟨_, _, rfl⟩
    | some d =>
      cases h2 : s.nfas.get l with
      | none => exact ⟨_, _, rfl⟩
      | some d' =>
        obtain ⟨b, e, _⟩ := C20_nfa_equivalent_to d d' (hn k d h1) (hn l d' h2)
        dsimp only
        rw [e]
        exact ⟨_, _, rfl⟩
  | nfaToDfa k =>
    dsimp only [call]
    unfold nfaToDfa
    cases h1 : s.nfas.get k with
    | none => exact ⟨_, _, rfl⟩
    | some n =>
      obtain ⟨m, e, _⟩ := C19_to_dfa n (hn k n h1)
      dsimp only
      rw [e]
      exact ⟨_, _, rfl⟩
  | dfaToTable k =>
    dsimp only [call]
    unfold dfaToTable
    cases h1 : s.dfas.get k with
    | none => exact ⟨_, _, rfl⟩
    | some n =>
      obtain ⟨⟨m, e, _⟩, _⟩ := C59_dfa_aligned n (hd k n h1)
      dsimp only
      rw [e]
      exact ⟨_, _, rfl⟩
  | nfaToTable k =>
    dsimp only [call]
    unfold nfaToTable
    cases h1 : s.nfas.get k with
    | none => exact ⟨_, _, rfl⟩
    | some n =>
      obtain ⟨⟨m, e, _⟩, _⟩ := C59_nfa_aligned n (hn k n h1)
      dsimp only
      rw [e]
      exact ⟨_, _, rfl⟩
  | _ => exact ⟨_, _, rfl⟩

theorem call_total {env : Env} {h : List (Call × Result)} {s : Store} (hi : Inv env h s) {c : Call} (hv : c.Valid) :
    ∃ s' r, call env s c = some (s', r) := call_total_good hi.good hv

theorem session_cons {env : Env} {c : Call} {cs : List Call} {s' : Store} {hist : List (Call × Result)}
    (h : session env (c :: cs) = some (s', hist)) :
    ∃ s h r, session env cs = some (s, h) ∧ call env s c = some (s', r) ∧ hist = (c, r) :: h := by
  rw [session] at h
  cases h1 : session env cs with
  | none => rw [h1] at h; cases h
  | some x =>
    obtain ⟨s, h0⟩ := x
    rw [h1] at h
    simp only [Option.bind_eq_bind, Option.bind_some] at h
    cases h2 : call env s c with
    | none => rw [h2] at h; cases h
    | some y =>
      obtain ⟨s2, r⟩ := y
      rw [h2] at h
      cases h
      exact ⟨s, h0, r, rfl, h2, rfl⟩

theorem session_inv {env : Env} (hcl : Segmentation env.cl) : ∀ {cs : List Call} {s : Store} {h : List (Call × Result)},
    (∀ c ∈ cs, c.Valid) → session env cs = some (s, h) → Inv env h s
  | [], s, h, _, hs => by cases hs; exact inv_init env
  | c :: cs, s, h, hv, hs => by
    obtain ⟨s0, h0, r, h1, h2, rfl⟩ := session_cons hs
    exact inv_step hcl (session_inv hcl (fun c hc => hv c (List.mem_cons_of_mem _ hc)) h1) (hv c List.mem_cons_self) h2

/-! ## errors -/

theorem loadDfa_error {env : Env} (hcl : Segmentation env.cl) {s s' : Store} {text : Str} {x : LoadError}
    (h : loadDfa s text = (s', .loaded (.error x))) : s' = s ∧ (reason .dfa x).Explains env.cl text .dfa := by
  unfold loadDfa at h
  have key : ∀ y, load env.cl text .dfa = .error y → y.Explains env.cl text .dfa := fun y => C61_load_error env.cl hcl text .dfa y
  unfold load at key
  dsimp only at key
  cases hp : FaE.dfa text with
  | error e => rw [hp] at h key; cases h; exact ⟨rfl, key _ rfl⟩
  | ok p =>
    rw [hp] at h key
    dsimp only at h key
    cases hv : Validate.dfa p with
    | error e => rw [hv] at h key; cases h; exact ⟨rfl, key _ rfl⟩
    | ok d => rw [hv] at h; cases h

theorem loadNfa_error {env : Env} (hcl : Segmentation env.cl) {s s' : Store} {text : Str} {x : LoadError}
    (h : loadNfa s text = (s', .loaded (.error x))) : s' = s ∧ (reason .nfa x).Explains env.cl text .nfa := by
  unfold loadNfa at h
  have key : ∀ y, load env.cl text .nfa = .error y → y.Explains env.cl text .nfa := fun y => C61_load_error env.cl hcl text .nfa y
  unfold load at key
  dsimp only at key
  cases hp : FaE.nfa text with
  | error e => rw [hp] at h key; cases h; exact ⟨rfl, key _ rfl⟩
  | ok p =>
    rw [hp] at h key
    dsimp only at h key
    cases hv : Validate.nfa p with
    | error e => rw [hv] at h key; cases h; exact ⟨rfl, key _ rfl⟩
    | ok d => rw [hv] at h; cases h

theorem loadRegex_error {env : Env} (hcl : Segmentation env.cl) {s s' : Store} {text : Str} {x : LoadError}
    (h : loadRegex env s text = (s', .loaded (.error x))) : (∃ e, x = .parse e) ∧ (reason .regex x).Explains env.cl text .regex := by
  unfold loadRegex at h
  have key : ∀ y, load env.cl text .regex = .error y → y.Explains env.cl text .regex := fun y => C61_load_error env.cl hcl text .regex y
  unfold load at key
  dsimp only at key
  cases hp : RegexE.regex env.cl text with
  | error e => rw [hp] at h key; cases h; exact ⟨⟨_, rfl⟩, key _ rfl⟩
  | ok p => rw [hp] at h; cases h

end Wasm
end Dandy
