import Verif.Spec.Words
import Verif.Proofs.Words
import Verif.Props.NfaEvaluator
/-! # C29 - C33: enumeration of the words of an NFA -/

namespace Dandy
open Samples WordIter

/-- Elements of an index word. -/
def Nfa.comp (n : Nfa) (w : List Nat) : Word := w.map (fun a => n.alphabet.getD a [])

theorem foldl_append_flatten (f : Nat → Str) (w : List Nat) : ∀ acc : Str,
    w.foldl (fun s c => s ++ f c) acc = acc ++ (w.map f).flatten := by
  induction w with
  | nil => simp
  | cons a w ih => intro acc; simp [ih]

theorem next_view (it : WordIter) : next it = (putNext it).map (fun it' => (it', it'.last)) := by
  unfold next; cases putNext it <;> rfl

theorem nextComponents_view (it : WordIter) : nextComponents it = (putNext it).map (fun it' => (it', it'.last.map it'.nfa.comp)) := by
  unfold nextComponents; cases putNext it <;> rfl

theorem nextString_view (it : WordIter) :
    nextString it = (putNext it).map (fun it' => (it', it'.last.map (fun w => (it'.nfa.comp w).flatten))) := by
  unfold nextString
  cases putNext it with
  | none => rfl
  | some it' =>
    simp only [foldl_append_flatten, List.nil_append]
    rfl

theorem new_isSome {n : Nfa} (he : n.hasEpsilonMoves = false) : ∃ it, new n = some it := by
  unfold new; rw [he]; exact ⟨_, rfl⟩

/-- All three iterators in terms of `out`. -/
theorem iterators_eq {n : Nfa} (hn : n.WF) (he : n.hasEpsilonMoves = false) : ∃ it, new n = some it ∧ ∀ k,
    n.wordComponentIndices k = some ((List.range k).map (out it)) ∧
    n.wordComponents k = some ((List.range k).map (fun j => (out it j).map n.comp)) ∧
    n.words k = some ((List.range k).map (fun j => (out it j).map (fun w => (n.comp w).flatten))) := by
  obtain ⟨it, hit⟩ := new_isSome he
  have hok := (iterOk_new hit).1
  refine ⟨it, hit, fun k => ⟨?_, ?_, ?_⟩⟩
  · unfold Nfa.wordComponentIndices
    rw [hit, Option.bind_eq_bind, Option.bind_some, calls_eq hn next_view k it hok]
    rfl
  · unfold Nfa.wordComponents
    rw [hit, Option.bind_eq_bind, Option.bind_some, calls_eq hn nextComponents_view k it hok]
    congr 1
    apply List.map_congr_left
    intro j _
    rw [(after_ok hn hok (j + 1)).1.inv.nfa]
    rfl
  · unfold Nfa.words
    rw [hit, Option.bind_eq_bind, Option.bind_some, calls_eq hn nextString_view k it hok]
    congr 1
    apply List.map_congr_left
    intro j _
    rw [(after_ok hn hok (j + 1)).1.inv.nfa]
    rfl

theorem comp_idx {n : Nfa} {w : Word} (h : Over n.alphabet w) : n.comp (w.map n.alphabet.idxOf) = w := by
  unfold Nfa.comp
  rw [List.map_map]
  conv_rhs => rw [← List.map_id w]
  apply List.map_congr_left
  intro e he
  have := List.getElem?_idxOf (h e he)
  simp only [Function.comp, List.getD_eq_getElem?_getD, this, Option.getD_some, id]

theorem comp_inj {n : Nfa} (hn : n.WF) {u v : List Nat} (hu : ∀ a ∈ u, a < n.alphabet.length) (hv : ∀ a ∈ v, a < n.alphabet.length)
    (h : n.comp u = n.comp v) : u = v := by
  have key : ∀ u : List Nat, (∀ a ∈ u, a < n.alphabet.length) → (n.comp u).map n.alphabet.idxOf = u := by
    intro u hu
    unfold Nfa.comp
    rw [List.map_map]
    conv_rhs => rw [← List.map_id u]
    apply List.map_congr_left
    intro a ha
    have := hn.alphabet_nodup.idxOf_getElem a (hu a ha)
    simp only [Function.comp, id]
    rw [getD_eq_of_getElem? (List.getElem?_eq_getElem (hu a ha)), this]
  rw [← key u hu, ← key v hv, h]

theorem lex_iff {n : Nfa} (hn : n.WF) : ∀ {u v : List Nat}, (∀ a ∈ u, a < n.alphabet.length) → (∀ a ∈ v, a < n.alphabet.length) →
    u.length = v.length →
    (u < v ↔ ∃ (p u' v' : Word) (a b : Str), n.comp u = p ++ a :: u' ∧ n.comp v = p ++ b :: v' ∧ Before n.alphabet a b) := by
  intro u
  induction u with
  | nil =>
    intro v _ _ hl
    have : v = [] := List.length_eq_zero_iff.1 hl.symm
    subst this
    simp [Nfa.comp]
  | cons x u ih =>
    intro v hu hv hl
    cases v with
    | nil => cases hl
    | cons y v =>
      have hx := hu x List.mem_cons_self
      have hy := hv y List.mem_cons_self
      have hu' : ∀ a ∈ u, a < n.alphabet.length := fun a ha => hu a (List.mem_cons_of_mem _ ha)
      have hv' : ∀ a ∈ v, a < n.alphabet.length := fun a ha => hv a (List.mem_cons_of_mem _ ha)
      have ex : n.alphabet[x]? = some (n.alphabet.getD x []) := getElem?_of_lt [] hx
      have ey : n.alphabet[y]? = some (n.alphabet.getD y []) := getElem?_of_lt [] hy
      have cx : n.comp (x :: u) = n.alphabet.getD x [] :: n.comp u := rfl
      have cy : n.comp (y :: v) = n.alphabet.getD y [] :: n.comp v := rfl
      rw [List.cons_lt_cons_iff, ih hu' hv' (by simpa using hl), cx, cy]
      constructor
      · rintro (h | ⟨rfl, p, u', v', a, b, h1, h2, h3⟩)
        · exact ⟨[], _, _, _, _, rfl, rfl, x, y, ex, ey, h⟩
        · exact ⟨_ :: p, u', v', a, b, by rw [h1]; rfl, by rw [h2]; rfl, h3⟩
      · rintro ⟨p, u', v', a, b, h1, h2, h3⟩
        cases p with
        | nil =>
          simp only [List.nil_append, List.cons.injEq] at h1 h2
          obtain ⟨i, j, h4, h5, h6⟩ := h3
          rw [← h1.1] at h4
          rw [← h2.1] at h5
          have e1 := (List.getElem?_inj hx hn.alphabet_nodup).1 (ex.trans h4.symm)
          have e2 := (List.getElem?_inj hy hn.alphabet_nodup).1 (ey.trans h5.symm)
          left; omega
        | cons c p =>
          simp only [List.cons_append, List.cons.injEq] at h1 h2
          right
          have e0 : n.alphabet[x]? = n.alphabet[y]? := by rw [ex, ey, h1.1, h2.1]
          exact ⟨(List.getElem?_inj hx hn.alphabet_nodup).1 e0, p, u', v', a, b, h1.2, h2.2, h3⟩

theorem sl_iff {n : Nfa} (hn : n.WF) {u v : List Nat} (hu : ∀ a ∈ u, a < n.alphabet.length) (hv : ∀ a ∈ v, a < n.alphabet.length) :
    SL u v ↔ ShortLex n.alphabet (n.comp u) (n.comp v) := by
  unfold SL ShortLex
  have l1 : (n.comp u).length = u.length := by simp [Nfa.comp]
  have l2 : (n.comp v).length = v.length := by simp [Nfa.comp]
  rw [l1, l2]
  constructor
  · rintro (h | ⟨h1, h2⟩)
    · exact Or.inl h
    · exact Or.inr ⟨h1, (lex_iff hn hu hv h1).1 h2⟩
  · rintro (h | ⟨h1, h2⟩)
    · exact Or.inl h
    · exact Or.inr ⟨h1, (lex_iff hn hu hv h1).2 h2⟩

theorem ilang_idx {n : Nfa} {w : List Nat} (hn : n.WF) (h : n.ILang w) : ∀ a ∈ w, a < n.alphabet.length := by
  obtain ⟨r, h1, _⟩ := h
  exact Nfa.ipath_idx_lt hn h1

theorem lang_idx {n : Nfa} (hn : n.WF) (he : n.hasEpsilonMoves = false) {w : Word} (h : n.Lang w) :
    n.ILang (w.map n.alphabet.idxOf) ∧ n.comp (w.map n.alphabet.idxOf) = w := by
  have ho := Nfa.over_of_lang h
  have hc := comp_idx ho
  refine ⟨(Nfa.ilang_iff hn he _).2 ⟨?_, ?_⟩, hc⟩
  · intro a ha
    obtain ⟨e, he, rfl⟩ := List.mem_map.1 ha
    exact List.idxOf_lt_length_of_mem (ho e he)
  · change n.Lang (n.comp _)
    rw [hc]; exact h

/-- **C32** The iterators can be constructed exactly for NFAs without epsilon moves (otherwise they panic). -/
theorem C32_construction_panics_iff (n : Nfa) :
    WordIter.new n = none ↔ ∃ s ∈ n.states, s.epsilonTransitions ≠ [] := by
  unfold WordIter.new
  have : n.hasEpsilonMoves = true ↔ ∃ s ∈ n.states, s.epsilonTransitions ≠ [] := by
    unfold Nfa.hasEpsilonMoves
    rw [List.any_eq_true]
    simp
  rw [← this]
  cases n.hasEpsilonMoves <;> simp

/-- **C32** For a valid NFA without epsilon moves no number of calls panics, and the three iterators yield the same words
as index lists, as lists of elements and as concatenated strings. -/
theorem C32_iterators_agree (n : Nfa) (hn : n.WF) (he : ∀ s ∈ n.states, s.epsilonTransitions = []) (k : Nat) :
    ∃ rs, n.wordComponentIndices k = some rs ∧ rs.length = k ∧ (∀ w, some w ∈ rs → ∀ a ∈ w, a < n.alphabet.length) ∧
      n.wordComponents k = some (rs.map (Option.map (fun w => w.map (fun a => n.alphabet.getD a [])))) ∧
      n.words k = some (rs.map (Option.map (fun w => (w.map (fun a => n.alphabet.getD a [])).flatten))) := by
  have he' : n.hasEpsilonMoves = false := by
    unfold Nfa.hasEpsilonMoves
    rw [List.any_eq_false]
    intro s hs
    simp [he s hs]
  obtain ⟨it, hit, h⟩ := iterators_eq hn he'
  obtain ⟨h1, h2, h3⟩ := h k
  refine ⟨_, h1, by simp, ?_, ?_, ?_⟩
  · intro w hw
    obtain ⟨j, _, hj⟩ := List.mem_map.1 hw
    exact ilang_idx hn ((out_spec hn hit j).1 w hj).1
  · rw [h2, List.map_map]; rfl
  · rw [h3, List.map_map]; rfl

/-- **C29** Everything yielded is accepted. -/
theorem C29_words_sound (n : Nfa) (hn : n.WF) (k : Nat) (rs : List (Option Word)) (h : n.wordComponents k = some rs)
    (w : Word) (hw : some w ∈ rs) : n.Lang w ∧ n.accepts w = true := by
  have he : n.hasEpsilonMoves = false := by
    by_contra hc
    unfold Nfa.wordComponents WordIter.new at h
    rw [if_pos (by simpa using hc)] at h; cases h
  obtain ⟨it, hit, h'⟩ := iterators_eq hn he
  rw [(h' k).2.1] at h
  cases h
  obtain ⟨j, _, hj⟩ := List.mem_map.1 hw
  cases ho : out it j with
  | none => rw [ho] at hj; cases hj
  | some iw =>
    rw [ho] at hj
    simp only [Option.map_some, Option.some.injEq] at hj
    subst hj
    have := ((Nfa.ilang_iff hn he iw).1 ((out_spec hn hit j).1 iw ho).1).2
    exact ⟨this, (C02_nfa_accepts_iff n hn _).2 this⟩

/-- **C30** The yielded words are strictly increasing: every item before a word is a word, and a smaller one. -/
theorem C30_words_increasing (n : Nfa) (hn : n.WF) (k : Nat) (rs : List (Option Word)) (h : n.wordComponents k = some rs)
    (i j : Nat) (hij : i < j) (w : Word) (hw : rs[j]? = some (some w)) :
    ∃ p, rs[i]? = some (some p) ∧ ShortLex n.alphabet p w := by
  have he : n.hasEpsilonMoves = false := by
    by_contra hc
    unfold Nfa.wordComponents WordIter.new at h
    rw [if_pos (by simpa using hc)] at h; cases h
  obtain ⟨it, hit, h'⟩ := iterators_eq hn he
  rw [(h' k).2.1] at h
  cases h
  have hjk : j < k := by
    have := (List.getElem?_eq_some_iff.1 hw).1
    simpa using this
  rw [List.getElem?_map, List.getElem?_range hjk] at hw
  rw [List.getElem?_map, List.getElem?_range (by omega)]
  simp only [Option.map_some, Option.some.injEq] at hw ⊢
  cases ho : out it j with
  | none => rw [ho] at hw; cases hw
  | some iw =>
    rw [ho] at hw
    simp only [Option.map_some, Option.some.injEq] at hw
    subst hw
    obtain ⟨hs1, _, _, hs4, _⟩ := out_spec hn hit j
    obtain ⟨p, hp, hlt⟩ := hs4 iw ho i hij
    refine ⟨n.comp p, by rw [hp]; rfl, (sl_iff hn ?_ ?_).1 hlt⟩
    · exact ilang_idx hn ((out_spec hn hit i).1 p hp).1
    · exact ilang_idx hn (hs1 iw ho).1

/-- **C30** In particular nothing is yielded twice. -/
theorem C30_words_no_duplicates (n : Nfa) (hn : n.WF) (k : Nat) (rs : List (Option Word)) (h : n.wordComponents k = some rs)
    (i j : Nat) (w : Word) (hi : rs[i]? = some (some w)) (hj : rs[j]? = some (some w)) : i = j := by
  have irr : ∀ u : Word, ¬ ShortLex n.alphabet u u := by
    rintro u (h | ⟨_, p, u', v', a, b, h1, h2, i, j, h3, h4, h5⟩)
    · omega
    · have := List.append_cancel_left (h1.symm.trans h2)
      rw [List.cons.injEq] at this
      rw [← this.1] at h4
      have := (List.getElem?_inj (List.getElem?_eq_some_iff.1 h3).1 hn.alphabet_nodup).1 (h3.trans h4.symm)
      omega
  by_contra hne
  rcases Nat.lt_or_gt_of_ne hne with hlt | hlt
  · obtain ⟨p, h1, h2⟩ := C30_words_increasing n hn k rs h i j hlt w hj
    rw [hi] at h1; cases h1; exact irr _ h2
  · obtain ⟨p, h1, h2⟩ := C30_words_increasing n hn k rs h j i hlt w hi
    rw [hj] at h1; cases h1; exact irr _ h2

/-- **C31** Every accepted word is eventually yielded. -/
theorem C31_words_complete (n : Nfa) (hn : n.WF) (he : ∀ s ∈ n.states, s.epsilonTransitions = []) (w : Word) (hw : n.Lang w) :
    ∃ k rs, n.wordComponents k = some rs ∧ some w ∈ rs := by
  have he' : n.hasEpsilonMoves = false := by
    unfold Nfa.hasEpsilonMoves
    rw [List.any_eq_false]
    intro s hs
    simp [he s hs]
  obtain ⟨it, hit, h'⟩ := iterators_eq hn he'
  obtain ⟨h1, h2⟩ := lang_idx hn he' hw
  obtain ⟨j, hj⟩ := out_complete hn hit h1
  refine ⟨j + 1, _, (h' _).2.1, List.mem_map.2 ⟨j, List.mem_range.2 (by omega), ?_⟩⟩
  rw [hj, Option.map_some, h2]

/-- **C31** At any point, every accepted word has been yielded already or is greater than everything yielded so far; so
nothing is skipped, neither before the first word nor between two consecutive ones. Once the iterator returns `None`, all
accepted words have been yielded and it returns `None` forever. -/
theorem C31_words_no_gap (n : Nfa) (hn : n.WF) (k : Nat) (rs : List (Option Word)) (h : n.wordComponents k = some rs) :
    (∀ (j : Nat) (w : Word), rs[j]? = some (some w) → ∀ v, n.Lang v → (∃ i : Nat, i ≤ j ∧ rs[i]? = some (some v)) ∨ ShortLex n.alphabet w v) ∧
    (∀ j : Nat, rs[j]? = some none → (∀ v, n.Lang v → ∃ i : Nat, i < j ∧ rs[i]? = some (some v)) ∧
      ∀ i : Nat, j ≤ i → i < k → rs[i]? = some none) := by
  have he : n.hasEpsilonMoves = false := by
    by_contra hc
    unfold Nfa.wordComponents WordIter.new at h
    rw [if_pos (by simpa using hc)] at h; cases h
  obtain ⟨it, hit, h'⟩ := iterators_eq hn he
  rw [(h' k).2.1] at h
  cases h
  have hget : ∀ j < k, ((List.range k).map (fun j => (out it j).map n.comp))[j]? = some ((out it j).map n.comp) := by
    intro j hj
    rw [List.getElem?_map, List.getElem?_range hj]; rfl
  have hlt : ∀ (j : Nat) (x : Option Word), ((List.range k).map (fun j => (out it j).map n.comp))[j]? = some x → j < k := by
    intro j x hx
    have := (List.getElem?_eq_some_iff.1 hx).1
    simpa using this
  constructor
  · intro j w hw v hv
    have hj := hlt j _ hw
    rw [hget j hj, Option.some.injEq] at hw
    cases ho : out it j with
    | none => rw [ho] at hw; cases hw
    | some iw =>
      rw [ho] at hw
      simp only [Option.map_some, Option.some.injEq] at hw
      subst hw
      obtain ⟨h1, h2⟩ := lang_idx hn he hv
      rcases (out_spec hn hit j).2.2.1 _ h1 with ⟨i, h3, h4⟩ | ⟨w', h3, h4⟩
      · left
        exact ⟨i, h3, by rw [hget i (by omega), h4, Option.map_some, h2]⟩
      · right
        rw [ho] at h3; cases h3
        have := (sl_iff hn (ilang_idx hn ((out_spec hn hit j).1 iw ho).1) (ilang_idx hn h1)).1 h4
        rwa [h2] at this
  · intro j hj
    have hjk := hlt j _ hj
    rw [hget j hjk, Option.some.injEq, Option.map_eq_none_iff] at hj
    obtain ⟨_, hs2, hs3, _, _⟩ := out_spec hn hit j
    constructor
    · intro v hv
      obtain ⟨h1, h2⟩ := lang_idx hn he hv
      rcases hs3 _ h1 with ⟨i, h3, h4⟩ | ⟨w', h3, h4⟩
      · refine ⟨i, ?_, by rw [hget i (by omega), h4, Option.map_some, h2]⟩
        rcases Nat.lt_or_eq_of_le h3 with h | h
        · exact h
        · subst h; rw [hj] at h4; cases h4
      · rw [hj] at h3; cases h3
    · intro i hji hik
      rw [hget i hik, Option.some.injEq, Option.map_eq_none_iff]
      have := failed_stays hn (iterOk_new hit).1 (hs2 hj) (i + 1) (by omega)
      unfold out
      rw [this]; exact hj

/-- `evenA` has alphabet `[b, a]` in this order. -/
example : (∀ st ∈ evenA.states, st.epsilonTransitions = []) ∧ evenA.wordComponents 4 =
    some [some [s 'a', s 'b'], some [s 'a', s 'a'], some [s 'a', s 'b', s 'b', s 'b'], some [s 'a', s 'b', s 'b', s 'a']] := by
  decide

/-- Accepts `a` and `bb` and nothing else. -/
def finiteNfa : Nfa :=
  ⟨[s 'a', s 'b'], [⟨s '0', true, false, [], [[2], [1]]⟩, ⟨s '1', false, false, [], [[], [2]]⟩,
    ⟨s '2', false, true, [], [[], []]⟩], 0⟩

example : finiteNfa.WF ∧ finiteNfa.words 5 = some [some ['a'], some ['b', 'b'], none, none, none] :=
  ⟨Nfa.wf_of_wfB (by decide), by decide⟩

example : WordIter.new epsNfa = none := by decide

/-- **C33** Each word over the alphabet of a DFA is eventually yielded by exactly one of the enumerations of the DFA and of
its inverse. -/
theorem C33_complement_cover (d : Dfa) (hd : d.WF) (w : Word) (hw : Over d.alphabet w) :
    ((∃ k rs, d.toNfa.wordComponents k = some rs ∧ some w ∈ rs) ∨
      ∃ k rs, d.invert.toNfa.wordComponents k = some rs ∧ some w ∈ rs) ∧
    ¬ ((∃ k rs, d.toNfa.wordComponents k = some rs ∧ some w ∈ rs) ∧
      ∃ k rs, d.invert.toNfa.wordComponents k = some rs ∧ some w ∈ rs) := by
  have key : ∀ d : Dfa, d.WF → ((∃ k rs, d.toNfa.wordComponents k = some rs ∧ some w ∈ rs) ↔ d.Lang w) := by
    intro d hd
    rw [← Dfa.toNfa_lang]
    constructor
    · rintro ⟨k, rs, h1, h2⟩; exact (C29_words_sound _ (Dfa.toNfa_wf hd) k rs h1 w h2).1
    · intro h
      refine C31_words_complete _ (Dfa.toNfa_wf hd) ?_ w h
      intro s hs
      obtain ⟨t, _, rfl⟩ := List.mem_map.1 hs
      rfl
  rw [key d hd, key d.invert (Dfa.invert_wf hd)]
  rw [(C07_invert_complement d hd w).2.1]
  tauto

example : oddA.toNfa.words 3 = some [some ['a'], some ['a', 'b'], some ['b', 'a']] ∧
    oddA.invert.toNfa.words 3 = some [some [], some ['b'], some ['a', 'a']] := by
  decide

/-! ## Instances of the theorems of this file -/

example := C32_construction_panics_iff Samples.epsNfa
example := C32_iterators_agree evenA evenA_wf (by decide) 5
example := C29_words_sound evenA evenA_wf 5 _ rfl [s 'a', s 'a'] (by decide)
example := C30_words_increasing evenA evenA_wf 5 _ rfl 0 2 (by decide) _ rfl
example := C30_words_no_duplicates evenA evenA_wf 5 _ rfl 1 1 _ rfl rfl
example := C31_words_complete evenA evenA_wf (by decide) [s 'a', s 'a'] ((Nfa.accepts_iff evenA_wf _).1 (by decide))

end Dandy
