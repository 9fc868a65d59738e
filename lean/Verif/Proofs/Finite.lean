import Verif.Proofs.Words
import Verif.Props.Words
import Mathlib.Data.Set.Card
import Mathlib.Data.Set.Finite.List
import Mathlib.Algebra.BigOperators.Intervals
import Mathlib.Algebra.Ring.GeomSum
/-! # Finite and infinite languages: pumping, and counting the items of the iterators -/

namespace Dandy

/-- All words over `al` with fewer than `m` elements. -/
def shortWords (al : List Str) : Nat → List Word
  | 0 => []
  | m + 1 => [] :: al.flatMap (fun a => (shortWords al m).map (a :: ·))

theorem mem_shortWords (al : List Str) : ∀ (m : Nat) (w : Word), w.length < m → Over al w → w ∈ shortWords al m
  | 0, _, h, _ => by omega
  | m + 1, [], _, _ => by simp [shortWords]
  | m + 1, a :: w, h, ho => by
    simp only [shortWords, List.mem_cons, List.mem_flatMap, List.mem_map]
    right
    refine ⟨a, ho a (by simp), w, mem_shortWords al m w ?_ (fun e he => ho e (by simp [he])), rfl⟩
    simp only [List.length_cons] at h; omega

theorem shortWords_length (al : List Str) : ∀ m, (shortWords al m).length = ∑ i ∈ Finset.range m, al.length ^ i
  | 0 => rfl
  | m + 1 => by
    rw [geom_sum_succ]
    have := shortWords_length al m
    simp only [shortWords, List.length_cons, List.length_flatMap, List.length_map, this, List.map_const', List.sum_replicate,
      smul_eq_mul]

namespace Nfa

/-- A path gives a state before every element of its word. -/
theorem path_trace {n : Nfa} {r : Nat} : ∀ (w : Word) (q : Nat), n.Path q w r →
    ∃ f : Nat → Nat, f 0 = q ∧ n.Path (f w.length) [] r ∧
      ∀ (i : Nat) (hi : i < w.length), n.Path (f i) [w[i]] (f (i + 1))
  | [], q, h => ⟨fun _ => q, rfl, h, fun i hi => by simp at hi⟩
  | e :: w, q, h => by
    obtain ⟨m, h1, h2⟩ := (path_append (u := [e]) (v := w)).1 h
    obtain ⟨f, f0, fl, fs⟩ := path_trace w m h2
    refine ⟨fun i => match i with | 0 => q | i + 1 => f i, rfl, by simpa using fl, ?_⟩
    intro i hi
    cases i with
    | zero => simpa [f0] using h1
    | succ i => simpa using fs i (by simpa using hi)

theorem trace_path {n : Nfa} {w : Word} {f : Nat → Nat}
    (hf : ∀ (i : Nat) (hi : i < w.length), n.Path (f i) [w[i]] (f (i + 1))) (i : Nat) :
    ∀ k, i + k ≤ w.length → n.Path (f i) ((w.drop i).take k) (f (i + k))
  | 0, _ => by simpa using Path.nil (n := n) (f i)
  | k + 1, h => by
    have h1 := trace_path hf i k (by omega)
    have h2 := hf (i + k) (by omega)
    rw [List.take_add_one, path_append]
    refine ⟨_, h1, ?_⟩
    rw [List.getElem?_drop, List.getElem?_eq_getElem (by omega)]
    exact h2

/-- The pumping lemma, with the number of states of the NFA as bound. -/
theorem pumping {n : Nfa} (hn : n.WF) {w : Word} (hw : n.Lang w) (hl : n.states.length ≤ w.length) :
    ∃ x y z : Word, w = x ++ y ++ z ∧ (x ++ y).length ≤ n.states.length ∧ y ≠ [] ∧
      ∀ i, n.Lang (x ++ (List.replicate i y).flatten ++ z) := by
  obtain ⟨r, hp, hr⟩ := hw
  obtain ⟨f, f0, fl, fs⟩ := path_trace w _ hp
  have hpre : ∀ i, i ≤ w.length → n.Path n.initialState (w.take i) (f i) := by
    intro i hi
    have := trace_path fs 0 i (by omega)
    simpa [f0] using this
  have hlt : ∀ i, i ≤ w.length → f i < n.states.length := fun i hi => path_lt hn hn.init_lt (hpre i hi)
  obtain ⟨a, b, hab, he⟩ := Fintype.exists_ne_map_eq_of_card_lt
    (fun i : Fin (n.states.length + 1) => (⟨f i, hlt i (by omega)⟩ : Fin n.states.length)) (by simp)
  have key : ∀ a b : Nat, a < b → b ≤ n.states.length → f a = f b → ∃ x y z : Word, w = x ++ y ++ z ∧
      (x ++ y).length ≤ n.states.length ∧ y ≠ [] ∧ ∀ i, n.Lang (x ++ (List.replicate i y).flatten ++ z) := by
    intro a b hab hb he
    have hy := trace_path fs a (b - a) (by omega)
    rw [show a + (b - a) = b by omega, ← he] at hy
    have hz : n.Path (f b) (w.drop b) r := by
      have h1 := trace_path fs b (w.length - b) (by omega)
      rw [show b + (w.length - b) = w.length by omega, List.take_of_length_le (by simp)] at h1
      have := path_append.2 ⟨_, h1, fl⟩
      simpa using this
    have hxy : w.take b = w.take a ++ (w.drop a).take (b - a) := by
      rw [← List.take_add, show a + (b - a) = b by omega]
    refine ⟨w.take a, (w.drop a).take (b - a), w.drop b, ?_, ?_, ?_, ?_⟩
    · rw [← hxy, List.take_append_drop]
    · rw [← hxy]; simp; omega
    · intro h0
      have := congrArg List.length h0
      simp only [List.length_take, List.length_drop, List.length_nil] at this
      omega
    · intro i
      have hyi : n.Path (f a) (List.replicate i ((w.drop a).take (b - a))).flatten (f a) := by
        induction i with
        | zero => simpa using Path.nil (n := n) (f a)
        | succ i ih =>
          rw [List.replicate_succ, List.flatten_cons, path_append]
          exact ⟨_, hy, ih⟩
      exact ⟨r, path_append.2 ⟨_, path_append.2 ⟨_, hpre a (by omega), hyi⟩, he ▸ hz⟩, hr⟩
  rw [Fin.mk.injEq] at he
  have hne : a.val ≠ b.val := fun h => hab (Fin.ext h)
  rcases Nat.lt_or_gt_of_ne hne with h | h
  · exact key a b h (by omega) he
  · exact key b a h (by omega) he.symm

theorem finite_of_short {n : Nfa} (m : Nat) (h : ∀ w, n.Lang w → w.length < m) :
    {w | n.Lang w}.Finite ∧ {w | n.Lang w}.ncard ≤ ∑ i ∈ Finset.range m, n.alphabet.length ^ i := by
  classical
  have hsub : {w | n.Lang w} ⊆ ((shortWords n.alphabet m).toFinset : Set Word) := by
    intro w hw
    simpa using mem_shortWords n.alphabet m w (h w hw) (over_of_lang hw)
  refine ⟨(Finset.finite_toSet _).subset hsub, ?_⟩
  calc {w | n.Lang w}.ncard ≤ ((shortWords n.alphabet m).toFinset : Set Word).ncard :=
        Set.ncard_le_ncard hsub (Finset.finite_toSet _)
    _ = (shortWords n.alphabet m).toFinset.card := Set.ncard_coe_finset _
    _ ≤ (shortWords n.alphabet m).length := List.toFinset_card_le _
    _ = _ := shortWords_length _ _

theorem short_of_finite {n : Nfa} (hn : n.WF) (h : {w | n.Lang w}.Finite) :
    ∀ w, n.Lang w → w.length < n.states.length := by
  intro w hw
  by_contra hc
  obtain ⟨x, y, z, _, _, hy, hp⟩ := pumping hn hw (by omega)
  refine Set.infinite_of_injective_forall_mem (f := fun i => x ++ (List.replicate i y).flatten ++ z) ?_ hp h
  intro i j hij
  have := congrArg List.length hij
  simp only [List.length_append, List.length_flatten, List.map_replicate, List.sum_replicate, smul_eq_mul] at this
  have hpos : 0 < y.length := List.length_pos_iff.2 hy
  exact Nat.eq_of_mul_eq_mul_right hpos (by omega)

/-- A word of any length class can be shortened, by at most the number of states, as long as it is long enough. -/
theorem shorten {n : Nfa} (hn : n.WF) {w : Word} (hw : n.Lang w) (hl : n.states.length ≤ w.length) :
    ∃ v, n.Lang v ∧ v.length < w.length ∧ w.length ≤ v.length + n.states.length := by
  obtain ⟨x, y, z, h1, h2, h3, h4⟩ := pumping hn hw hl
  have hpos : 0 < y.length := List.length_pos_iff.2 h3
  refine ⟨x ++ z, by simpa using h4 0, ?_, ?_⟩
  · rw [h1]; simp only [List.length_append]; omega
  · rw [h1]; simp only [List.length_append] at h2 ⊢; omega

theorem shorten_below {n : Nfa} (hn : n.WF) (m : Nat) : ∀ (l : Nat) (w : Word), w.length = l → n.Lang w → m ≤ w.length →
    ∃ v, n.Lang v ∧ m ≤ v.length ∧ v.length < m + n.states.length := by
  intro l
  induction l using Nat.strong_induction_on with
  | _ l ih =>
    intro w hl hw hm
    by_cases h : w.length < m + n.states.length
    · exact ⟨w, hw, hm, h⟩
    · obtain ⟨v, h1, h2, h3⟩ := shorten hn hw (by omega)
      exact ih v.length (by omega) v rfl h1 (by omega)

end Nfa
end Dandy
