import Verif.Proofs.ApartWords
import Verif.Spec.Combined
/-! # Enumerations and operations on languages -/

namespace Dandy
open Cli

theorem keepWords_words (P : Word → Bool) (ws : List Word) (m : Nat) :
    keepWords P (ws.map some ++ List.replicate m none) = (ws.filter P).map some ++ List.replicate m none := by
  induction ws with
  | nil =>
    simp only [List.map_nil, List.nil_append, List.filter_nil]
    induction m with
    | zero => rfl
    | succ m ih => rw [List.replicate_succ, keepWords, ih]
  | cons w ws ih =>
    simp only [List.map_cons, List.cons_append, keepWords, ih, List.filter_cons]
    split <;> simp

/-- Filtering the first words gives the first words of the filtered language. -/
theorem Cli.FirstWords.filter {al : List Str} {L : Word → Prop} {P : Word → Bool} {k m : Nat} {ws : List Word} (h : FirstWords al L k ws)
    (hm : ws.length + m = k) : FirstWords al (fun w => L w ∧ P w = true) ((ws.filter P).length + m) (ws.filter P) := by
  refine ⟨fun w hw => ?_, h.sorted.filter _, Nat.le_add_right _ _, fun v hv => ?_⟩
  · rw [List.mem_filter] at hw
    exact ⟨h.sound w hw.1, hw.2⟩
  · rcases h.complete v hv.1 with h1 | ⟨h1, h2⟩
    · exact .inl (List.mem_filter.2 ⟨h1, hv.2⟩)
    · refine .inr ⟨by omega, fun w hw => h2 w (List.mem_filter.1 hw).1⟩

theorem wordComponents_keep {n p : Nfa} (hn : n.WF) (hp : p.WF) (hen : ∀ s ∈ n.states, s.epsilonTransitions = [])
    (hep : ∀ s ∈ p.states, s.epsilonTransitions = []) (ha : p.alphabet = n.alphabet) (P : Word → Bool)
    (hL : ∀ w, p.Lang w ↔ n.Lang w ∧ P w = true) (k : Nat) :
    ∃ rs, n.wordComponents k = some rs ∧ p.wordComponents (keepWords P rs).length = some (keepWords P rs) := by
  obtain ⟨ws, m, h1, h2, h3⟩ := wordComponents_first hn hen k
  refine ⟨_, h1, ?_⟩
  rw [keepWords_words]
  have hlen : ((ws.filter P).map some ++ List.replicate m (none : Option Word)).length = (ws.filter P).length + m := by simp
  rw [hlen]
  obtain ⟨vs, m', g1, g2, g3⟩ := wordComponents_first hp hep ((ws.filter P).length + m)
  have : vs = ws.filter P := FirstWords.unique hp.alphabet_nodup g3 (by
    rw [ha]; exact (h3.filter h2).congr (fun w => (hL w).symm))
  subst this
  obtain rfl : m' = m := by omega
  exact g1

/-- The first words of a union are the first of the first words of both. -/
theorem Cli.FirstWords.union {al : List Str} (hnd : al.Nodup) {L L' : Word → Prop} {k : Nat} {ws ws' us : List Word}
    (h : FirstWords al L k ws) (h' : FirstWords al L' k ws') (hu : FirstWords al (fun w => L w ∨ L' w) k us) :
    FirstWords al (fun w => w ∈ ws ∨ w ∈ ws') k us := by
  have key : ∀ (M : Word → Prop) (vs : List Word), FirstWords al M k vs → (∀ w, M w → L w ∨ L' w) → ∀ w ∈ us, M w → w ∈ vs := by
    intro M vs hv hM w hw hMw
    rcases hv.complete w hMw with h1 | ⟨h1, h2⟩
    · exact h1
    · exfalso
      -- the `k` words of `vs` are all before `w`, hence in `us`
      have hsub : ∀ v ∈ w :: vs, v ∈ us := by
        intro v hv'
        rcases List.mem_cons.1 hv' with rfl | hv'
        · exact hw
        · rcases hu.complete v (hM v (hv.sound v hv')) with h3 | ⟨_, h4⟩
          · exact h3
          · exact absurd (h4 w hw) (ShortLex.asymm hnd (h2 v hv'))
      have hnd' : (w :: vs).Nodup := List.nodup_cons.2
        ⟨fun hc => ShortLex.asymm hnd (h2 w hc) (h2 w hc), FirstWords.nodup hnd hv⟩
      have := (hnd'.subperm hsub).length_le
      have := hu.short
      simp only [List.length_cons] at *
      omega
  refine ⟨fun w hw => ?_, hu.sorted, hu.short, fun v hv => ?_⟩
  · rcases hu.sound w hw with h1 | h1
    · exact .inl (key L ws h (fun _ => .inl) w hw h1)
    · exact .inr (key L' ws' h' (fun _ => .inr) w hw h1)
  · exact hu.complete v (hv.imp (h.sound v) (h'.sound v))

end Dandy
