import Verif.Proofs.NfaCore
/-! # `Dfa::to_nfa` -/

namespace Dandy
namespace Dfa

theorem toNfa_wf {d : Dfa} (hd : d.WF) : d.toNfa.WF := by
  refine ⟨hd.alphabet_nodup, ?_, ?_, ?_, ?_, ?_, ?_⟩
  · simpa [toNfa, Function.comp_def, DfaState.toNfaState] using hd.names_nodup
  · intro t ht
    obtain ⟨u, hu, rfl⟩ := List.mem_map.1 ht
    simpa [toNfa, DfaState.toNfaState] using hd.row_len u hu
  · intro t ht x hx y hy
    obtain ⟨u, hu, rfl⟩ := List.mem_map.1 ht
    simp only [DfaState.toNfaState, List.mem_map] at hx
    obtain ⟨z, hz, rfl⟩ := hx
    simp only [List.mem_singleton] at hy
    subst hy
    simpa [toNfa] using hd.targets u hu y hz
  · intro t ht x hx
    obtain ⟨u, hu, rfl⟩ := List.mem_map.1 ht
    simp [DfaState.toNfaState] at hx
  · simpa [toNfa] using hd.init_lt
  · intro i t ht
    simp only [toNfa, List.getElem?_map, Option.map_eq_some_iff] at ht
    obtain ⟨u, hu, rfl⟩ := ht
    exact hd.init_flag i u hu

theorem toNfa_path {d : Dfa} {q r : Nat} {w : Word} : d.toNfa.Path q w r ↔ d.Run q w r := by
  constructor
  · intro h
    induction h with
    | nil => exact .nil _
    | eps h1 h2 _ _ =>
      simp only [toNfa, List.getElem?_map, Option.map_eq_some_iff] at h1
      obtain ⟨u, hu, rfl⟩ := h1
      simp [DfaState.toNfaState] at h2
    | step h1 h2 h3 h4 _ ih =>
      simp only [toNfa, List.getElem?_map, Option.map_eq_some_iff] at h1
      obtain ⟨u, hu, rfl⟩ := h1
      simp only [DfaState.toNfaState, List.getElem?_map, Option.map_eq_some_iff] at h3
      obtain ⟨v, hv, rfl⟩ := h3
      rw [List.mem_singleton] at h4
      subst h4
      exact .cons hu h2 hv ih
  · intro h
    induction h with
    | nil => exact .nil _
    | cons h1 h2 h3 _ ih =>
      refine .step (s := DfaState.toNfaState _) (by simp only [toNfa, List.getElem?_map, h1]; rfl) h2
        (ts := [_]) (by simp only [DfaState.toNfaState, List.getElem?_map, h3]; rfl) (List.mem_singleton.2 rfl) ih

theorem toNfa_acc {d : Dfa} {q : Nat} : d.toNfa.Acc q ↔ d.Acc q := by
  simp only [Nfa.Acc, Dfa.Acc, toNfa, List.getElem?_map, Option.map_eq_some_iff]
  constructor
  · rintro ⟨s, ⟨u, h1, rfl⟩, h2⟩; exact ⟨u, h1, h2⟩
  · rintro ⟨u, h1, h2⟩; exact ⟨_, ⟨u, h1, rfl⟩, h2⟩

theorem toNfa_lang {d : Dfa} {w : Word} : d.toNfa.Lang w ↔ d.Lang w := by
  simp only [Nfa.Lang, Dfa.Lang, toNfa_path, toNfa_acc]; rfl

end Dfa
end Dandy
