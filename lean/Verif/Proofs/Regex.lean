import Verif.Spec.Regex
import Verif.Proofs.NfaCore
import Verif.Proofs.Names
/-! # Lemmas about the conversion of regular expressions to NFAs -/

namespace Dandy
open RegexTree

/-- Paths with their number of moves. -/
def Nfa.PathN (n : Nfa) : Nat → Nat → Word → Nat → Prop
  | 0, q, w, r => w = [] ∧ q = r
  | k + 1, q, w, r => (∃ t ∈ n.ep q, Nfa.PathN n k t w r) ∨ ∃ e w' t, w = e :: w' ∧ n.Step q e t ∧ Nfa.PathN n k t w' r

theorem Nfa.pathN_iff {n : Nfa} {q r : Nat} {w : Word} : n.Path q w r ↔ ∃ k, n.PathN k q w r := by
  constructor
  · intro h
    induction h with
    | nil q => exact ⟨0, rfl, rfl⟩
    | eps h1 h2 _ ih =>
      obtain ⟨k, hk⟩ := ih
      exact ⟨k + 1, Or.inl ⟨_, Nfa.mem_ep.2 ⟨_, h1, h2⟩, hk⟩⟩
    | step h1 h2 h3 h4 _ ih =>
      obtain ⟨k, hk⟩ := ih
      exact ⟨k + 1, Or.inr ⟨_, _, _, rfl, ⟨_, h2, Nfa.mem_tr.2 ⟨_, _, h1, h3, h4⟩⟩, hk⟩⟩
  · rintro ⟨k, hk⟩
    induction k generalizing q w with
    | zero => obtain ⟨rfl, rfl⟩ := hk; exact .nil q
    | succ k ih =>
      rcases hk with ⟨t, h1, h2⟩ | ⟨e, w', t, rfl, h1, h2⟩
      · exact Nfa.path_append (u := []).2 ⟨t, Nfa.path_nil_iff.2 (.single h1), ih h2⟩
      · exact Nfa.path_append (u := [e]).2 ⟨t, Nfa.step_path h1, ih h2⟩

theorem graphemeIdx_spec (g : Str) (chars : List Str) :
    (graphemeIdx g chars).2[(graphemeIdx g chars).1]? = some g ∧ chars <+: (graphemeIdx g chars).2 ∧
      (chars.Nodup → (graphemeIdx g chars).2.Nodup) ∧
      (graphemeIdx g chars).2 = if g ∈ chars then chars else chars ++ [g] := by
  unfold graphemeIdx
  split
  · rename_i h
    exact ⟨List.getElem?_idxOf h, List.prefix_refl _, id, rfl⟩
  · rename_i h
    refine ⟨by simp, List.prefix_append _ _, ?_, rfl⟩
    intro hn
    rw [List.nodup_append]
    exact ⟨hn, by simp, by intro a ha b hb; simp at hb; subst hb; rintro rfl; exact h ha⟩

/-- Numbering, names and targets of the states built for a part of the expression. -/
structure Facts (b : Built) (c : Nat) (chars : List Str) (send : Nat) (gs : List Str) : Prop where
  counter : b.counter = c + b.states.length
  chars_eq : b.chars = gs.foldl (fun l g => if g ∈ l then l else l ++ [g]) chars
  pre : chars <+: b.chars
  names : ∀ (k : Nat) s, b.states[k]? = some s → s.name = numStr (c + k) ∧ s.initial = false ∧ s.accepting = false
  row : ∀ s ∈ b.states, s.transitions.length ≤ b.chars.length
  eps : ∀ s ∈ b.states, ∀ t ∈ s.epsilonTransitions, (c ≤ t ∧ t < b.counter) ∨ t = send
  trans : ∀ s ∈ b.states, ∀ ts ∈ s.transitions, ∀ t ∈ ts, (c ≤ t ∧ t < b.counter) ∨ t = send

theorem foldl_pre (gs chars : List Str) : chars <+: gs.foldl (fun l g => if g ∈ l then l else l ++ [g]) chars := by
  induction gs generalizing chars with
  | nil => exact List.prefix_refl _
  | cons g gs ih =>
    rw [List.foldl_cons]
    refine List.IsPrefix.trans ?_ (ih _)
    split
    · exact List.prefix_refl _
    · exact List.prefix_append _ _

theorem facts_single {s : NfaState} {c : Nat} {chars chars' : List Str} {send : Nat} {gs : List Str}
    (hs : s.name = numStr c ∧ s.initial = false ∧ s.accepting = false)
    (hc : chars' = gs.foldl (fun l g => if g ∈ l then l else l ++ [g]) chars)
    (hr : s.transitions.length ≤ chars'.length)
    (he : ∀ t ∈ s.epsilonTransitions, t = send) (ht : ∀ ts ∈ s.transitions, ∀ t ∈ ts, t = send) :
    Facts ⟨[s], c + 1, chars'⟩ c chars send gs := by
  refine ⟨rfl, hc, hc ▸ foldl_pre gs chars, ?_, ?_, ?_, ?_⟩
  · intro k s' h
    match k, h with
    | 0, h => simp at h; subst h; exact hs
    | k + 1, h => simp at h
  · intro s' h; rw [List.mem_singleton.1 h]; exact hr
  · intro s' h; rw [List.mem_singleton.1 h]; intro t ht; exact Or.inr (he t ht)
  · intro s' h; rw [List.mem_singleton.1 h]; intro ts hts t h'; exact Or.inr (ht ts hts t h')

/-- Putting a state without transitions in front. -/
theorem facts_cons {b : Built} {s : NfaState} {c : Nat} {chars : List Str} {send send' : Nat} {gs : List Str}
    (h : Facts b (c + 1) chars send' gs) (hs : s.name = numStr c ∧ s.initial = false ∧ s.accepting = false)
    (htr : s.transitions = []) (he : ∀ t ∈ s.epsilonTransitions, (c ≤ t ∧ t < b.counter) ∨ t = send)
    (hsend : send' = send ∨ send' = c) :
    Facts ⟨s :: b.states, b.counter, b.chars⟩ c chars send gs := by
  have hcnt := h.counter
  refine ⟨by simp [hcnt]; omega, h.chars_eq, h.pre, ?_, ?_, ?_, ?_⟩
  · intro k s' hk
    match k, hk with
    | 0, hk => simp at hk; subst hk; exact hs
    | k + 1, hk =>
      simp only [List.getElem?_cons_succ] at hk
      have := h.names k s' hk
      rwa [show c + 1 + k = c + (k + 1) by omega] at this
  · intro s' hs'
    rcases List.mem_cons.1 hs' with rfl | hs'
    · rw [htr]; exact Nat.zero_le _
    · exact h.row s' hs'
  · intro s' hs' t ht
    rcases List.mem_cons.1 hs' with rfl | hs'
    · exact he t ht
    · simp only
      rcases h.eps s' hs' t ht with h1 | h1 <;> omega
  · intro s' hs' ts hts t ht
    rcases List.mem_cons.1 hs' with rfl | hs'
    · rw [htr] at hts; cases hts
    · simp only
      rcases h.trans s' hs' ts hts t ht with h1 | h1 <;> omega

/-- One part after another. -/
theorem facts_append {b b' : Built} {c : Nat} {chars : List Str} {send : Nat} {gs gs' : List Str}
    (h : Facts b c chars send gs) (h' : Facts b' b.counter b.chars send gs') :
    Facts ⟨b.states ++ b'.states, b'.counter, b'.chars⟩ c chars send (gs ++ gs') := by
  have hcnt := h.counter
  have hcnt' := h'.counter
  refine ⟨by simp; omega, ?_, h.pre.trans h'.pre, ?_, ?_, ?_, ?_⟩
  · rw [List.foldl_append, ← h.chars_eq]; exact h'.chars_eq
  · intro k s hk
    simp only at hk
    rw [List.getElem?_append] at hk
    split at hk
    · exact h.names k s hk
    · have := h'.names _ s hk
      rwa [show b.counter + (k - b.states.length) = c + k by omega] at this
  · intro s hs
    rcases List.mem_append.1 hs with hs | hs
    · exact (h.row s hs).trans h'.pre.length_le
    · exact h'.row s hs
  · intro s hs t ht
    simp only
    rcases List.mem_append.1 hs with hs | hs
    · rcases h.eps s hs t ht with h1 | h1 <;> omega
    · rcases h'.eps s hs t ht with h1 | h1 <;> omega
  · intro s hs ts hts t ht
    simp only
    rcases List.mem_append.1 hs with hs | hs
    · rcases h.trans s hs ts hts t ht with h1 | h1 <;> omega
    · rcases h'.trans s hs ts hts t ht with h1 | h1 <;> omega

mutual

theorem treeToNfa_facts : ∀ (t : RegexTree) (c : Nat) (chars : List Str) (send : Nat),
    Facts (treeToNfa t c chars send) c chars send t.graphemes ∧ 0 < (treeToNfa t c chars send).states.length
  | .seq [], c, chars, send => by
    rw [treeToNfa]
    exact ⟨facts_single ⟨rfl, rfl, rfl⟩ rfl (Nat.zero_le _) (by intro t h; simpa using h) (by intro ts h; cases h), by simp⟩
  | .seq (t :: ts), c, chars, send => by
    rw [treeToNfa]
    have h := seqLoop_facts (t :: ts) (c + 1) chars send
    refine ⟨?_, by simp⟩
    rw [RegexTree.graphemes]
    refine facts_cons h.1 ⟨rfl, rfl, rfl⟩ rfl ?_ (Or.inl rfl)
    intro x hx
    simp only [List.mem_singleton] at hx
    have := h.2 (by simp)
    left; omega
  | .alt ts, c, chars, send => by
    rw [treeToNfa]
    obtain ⟨h, h2⟩ := altLoop_facts ts (c + 1) chars send
    refine ⟨?_, by simp⟩
    rw [RegexTree.graphemes]
    refine facts_cons h ⟨rfl, rfl, rfl⟩ rfl ?_ (Or.inl rfl)
    intro x hx
    have := h2 x hx
    left; omega
  | .rep t, c, chars, send => by
    rw [treeToNfa]
    obtain ⟨h, h2⟩ := treeToNfa_facts t (c + 1) chars c
    refine ⟨?_, by simp⟩
    rw [RegexTree.graphemes]
    refine facts_cons h ⟨rfl, rfl, rfl⟩ rfl ?_ (Or.inr rfl)
    intro x hx
    have hc := h.counter
    simp only [List.mem_cons, List.not_mem_nil, or_false] at hx
    rcases hx with rfl | rfl
    · left; omega
    · right; rfl
  | .chr (.grapheme g), c, chars, send => by
    rw [treeToNfa]
    obtain ⟨h1, h2, h3, h4⟩ := graphemeIdx_spec g chars
    refine ⟨facts_single ⟨rfl, rfl, rfl⟩ ?_ ?_ (by intro t h; cases h) ?_, by simp⟩
    · exact h4
    · simp only [List.length_append, List.length_replicate, List.length_cons, List.length_nil]
      exact (List.getElem?_eq_some_iff.1 h1).1
    · intro ts hts t ht
      simp only [List.mem_append, List.mem_replicate, List.mem_singleton] at hts
      rcases hts with ⟨_, rfl⟩ | rfl
      · cases ht
      · simpa using ht
  | .chr .epsilon, c, chars, send => by
    rw [treeToNfa]
    exact ⟨facts_single ⟨rfl, rfl, rfl⟩ rfl (Nat.zero_le _) (by intro t h; simpa using h) (by intro ts h; cases h), by simp⟩
  | .chr .empty, c, chars, send => by
    rw [treeToNfa]
    exact ⟨facts_single ⟨rfl, rfl, rfl⟩ rfl (Nat.zero_le _) (by intro t h; cases h) (by intro ts h; cases h), by simp⟩

theorem seqLoop_facts : ∀ (ts : List RegexTree) (c : Nat) (chars : List Str) (send : Nat),
    Facts (seqLoop ts c chars send) c chars send (RegexTree.graphemesList ts) ∧ (ts ≠ [] → c + 1 < (seqLoop ts c chars send).counter)
  | [], c, chars, send => by
    rw [seqLoop]
    refine ⟨⟨rfl, rfl, List.prefix_refl _, ?_, ?_, ?_, ?_⟩, fun h => absurd rfl h⟩
    · intro k s h; simp at h
    · intro s h; cases h
    · intro s h; cases h
    · intro s h; cases h
  | t :: ts, c, chars, send => by
    rw [seqLoop]
    obtain ⟨h1, h2⟩ := treeToNfa_facts t (c + 1) chars c
    obtain ⟨h3, h4⟩ := seqLoop_facts ts (treeToNfa t (c + 1) chars c).counter (treeToNfa t (c + 1) chars c).chars send
    have hc := h1.counter
    have hc' := h3.counter
    refine ⟨?_, ?_⟩
    · rw [RegexTree.graphemesList]
      generalize treeToNfa t (c + 1) chars c = b at *
      generalize hb' : seqLoop ts b.counter b.chars send = b' at *
      refine ⟨by simp; omega, ?_, h1.pre.trans h3.pre, ?_, ?_, ?_, ?_⟩
      · rw [List.foldl_append, ← h1.chars_eq]; exact h3.chars_eq
      · intro k s hk
        match k, hk with
        | 0, hk => simp at hk; subst hk; exact ⟨rfl, rfl, rfl⟩
        | k + 1, hk =>
          simp only [List.cons_append, List.getElem?_cons_succ] at hk
          rw [List.getElem?_append] at hk
          split at hk
          · have := h1.names k s hk
            rwa [show c + 1 + k = c + (k + 1) by omega] at this
          · have := h3.names _ s hk
            rwa [show b.counter + (k - b.states.length) = c + (k + 1) by omega] at this
      · intro s hs
        simp only [List.cons_append, List.mem_cons, List.mem_append] at hs
        rcases hs with rfl | hs | hs
        · exact Nat.zero_le _
        · exact (h1.row s hs).trans h3.pre.length_le
        · exact h3.row s hs
      · intro s hs x hx
        simp only [List.cons_append, List.mem_cons, List.mem_append] at hs
        simp only
        rcases hs with rfl | hs | hs
        · simp only [List.mem_singleton] at hx
          cases ts with
          | nil => right; simpa using hx
          | cons t' ts' =>
            simp only [List.isEmpty_cons, Bool.false_eq_true, if_false] at hx
            have := h4 (by simp)
            left; omega
        · rcases h1.eps s hs x hx with h | h <;> omega
        · rcases h3.eps s hs x hx with h | h <;> omega
      · intro s hs tr htr x hx
        simp only [List.cons_append, List.mem_cons, List.mem_append] at hs
        simp only
        rcases hs with rfl | hs | hs
        · cases htr
        · rcases h1.trans s hs tr htr x hx with h | h <;> omega
        · rcases h3.trans s hs tr htr x hx with h | h <;> omega
    · intro _
      simp only
      omega

theorem altLoop_facts : ∀ (ts : List RegexTree) (c : Nat) (chars : List Str) (send : Nat),
    Facts (altLoop ts c chars send).2 c chars send (RegexTree.graphemesList ts) ∧
      ∀ x ∈ (altLoop ts c chars send).1, c ≤ x ∧ x < (altLoop ts c chars send).2.counter
  | [], c, chars, send => by
    rw [altLoop]
    refine ⟨⟨rfl, rfl, List.prefix_refl _, ?_, ?_, ?_, ?_⟩, fun x h => by cases h⟩
    · intro k s h; simp at h
    · intro s h; cases h
    · intro s h; cases h
    · intro s h; cases h
  | t :: ts, c, chars, send => by
    rw [altLoop]
    obtain ⟨h1, h2⟩ := treeToNfa_facts t c chars send
    obtain ⟨h3, h4⟩ := altLoop_facts ts (treeToNfa t c chars send).counter (treeToNfa t c chars send).chars send
    have hc := h1.counter
    have hc' := h3.counter
    refine ⟨?_, ?_⟩
    · rw [RegexTree.graphemesList]; exact facts_append h1 h3
    · intro x hx
      simp only [List.mem_cons] at hx
      simp only
      rcases hx with rfl | hx
      · omega
      · have := h4 x hx; omega

end

theorem prefix_getElem? {α : Type} {l r : List α} {i : Nat} {x : α} (h : l <+: r) (hi : l[i]? = some x) : r[i]? = some x := by
  obtain ⟨s, rfl⟩ := h
  rw [List.getElem?_append_left (List.getElem?_eq_some_iff.1 hi).1]; exact hi

/-- The automaton has these states from index `c` on. -/
def Contains (n : Nfa) (sts : List NfaState) (c : Nat) : Prop :=
  ∀ (k : Nat) s, sts[k]? = some s → n.ep (c + k) = s.epsilonTransitions ∧ ∀ a, n.tr (c + k) a = s.transitions.getD a []

theorem Contains.head {n : Nfa} {s : NfaState} {sts : List NfaState} {c : Nat} (h : Contains n (s :: sts) c) :
    n.ep c = s.epsilonTransitions ∧ ∀ a, n.tr c a = s.transitions.getD a [] := by
  have := h 0 s rfl
  simpa using this

theorem Contains.tail {n : Nfa} {s : NfaState} {sts : List NfaState} {c : Nat} (h : Contains n (s :: sts) c) : Contains n sts (c + 1) := by
  intro k s' hk
  have := h (k + 1) s' (by simpa using hk)
  rwa [show c + (k + 1) = c + 1 + k by omega] at this

theorem Contains.left {n : Nfa} {l r : List NfaState} {c : Nat} (h : Contains n (l ++ r) c) : Contains n l c := by
  intro k s hk
  have hlt := (List.getElem?_eq_some_iff.1 hk).1
  exact h k s (by rw [List.getElem?_append_left hlt]; exact hk)

theorem Contains.right {n : Nfa} {l r : List NfaState} {c : Nat} (h : Contains n (l ++ r) c) : Contains n r (c + l.length) := by
  intro k s hk
  have := h (l.length + k) s (by rw [List.getElem?_append_right (by omega)]; simpa using hk)
  rwa [← Nat.add_assoc] at this

theorem path_of_ep {n : Nfa} {q t r : Nat} {w : Word} (h : t ∈ n.ep q) (hp : n.Path t w r) : n.Path q w r :=
  Nfa.path_append (u := []).2 ⟨t, Nfa.path_nil_iff.2 (.single h), hp⟩

/-- The entry of the column of a grapheme. -/
theorem replicate_getD {cidx i send : Nat} :
    (List.replicate cidx ([] : List Nat) ++ [[send]]).getD i [] = if i = cidx then [send] else [] := by
  rw [List.getD_eq_getElem?_getD, List.getElem?_append]
  simp only [List.length_replicate]
  split
  · rename_i h
    rw [if_neg (by omega)]; simp [h]
  · rename_i h
    by_cases he : i = cidx
    · subst he; simp
    · rw [if_neg he]
      have : i - cidx = (i - cidx - 1) + 1 := by omega
      rw [this]; simp

/-- Moves of a state without transitions. -/
theorem no_step {n : Nfa} {q t : Nat} {e : Str} {s : NfaState} (h : ∀ a, n.tr q a = s.transitions.getD a []) (hs : s.transitions = []) :
    ¬ n.Step q e t := by
  rintro ⟨i, _, h2⟩
  rw [h, hs] at h2; cases h2

mutual

theorem tree_complete : ∀ (t : RegexTree) (c : Nat) (chars : List Str) (send : Nat) (n : Nfa),
    Contains n (treeToNfa t c chars send).states c → (treeToNfa t c chars send).chars <+: n.alphabet →
    ∀ w, Matches t w → n.Path c w send
  | .seq [], c, chars, send, n, hc, _, w, hw => by
    rw [treeToNfa] at hc
    cases hw
    refine path_of_ep (t := send) ?_ (.nil send)
    rw [hc.head.1]; simp
  | .seq (t :: ts), c, chars, send, n, hc, hp, w, hw => by
    rw [treeToNfa] at hc hp
    refine path_of_ep (t := c + 1 + 1) ?_ (seq_complete (t :: ts) (c + 1) chars send n hc.tail hp (by simp) w hw)
    rw [hc.head.1]; simp
  | .alt ts, c, chars, send, n, hc, hp, w, hw => by
    rw [treeToNfa] at hc hp
    cases hw with
    | alt h1 h2 =>
      obtain ⟨e, he, hpath⟩ := alt_complete ts (c + 1) chars send n hc.tail hp _ h1 w h2
      refine path_of_ep (t := e) ?_ hpath
      rw [hc.head.1]; exact he
  | .rep t, c, chars, send, n, hc, hp, w, hw => by
    rw [treeToNfa] at hc hp
    have ih := tree_complete t (c + 1) chars c n hc.tail hp
    have hep := hc.head.1
    have key : ∀ t' w, Matches t' w → t' = RegexTree.rep t → n.Path c w send := by
      intro t' w hm
      induction hm with
      | grapheme | epsilon | seqNil | seqCons | alt => intro h; cases h
      | repNil =>
        intro _
        exact path_of_ep (t := send) (by rw [hep]; simp) (.nil send)
      | repCons h1 _ _ ih2 =>
        intro h
        cases h
        exact path_of_ep (t := c + 1) (by rw [hep]; simp) (Nfa.path_append.2 ⟨c, ih _ h1, ih2 rfl⟩)
    exact key _ w hw rfl
  | .chr (.grapheme g), c, chars, send, n, hc, hp, w, hw => by
    rw [treeToNfa] at hc hp
    cases hw
    obtain ⟨h1, _⟩ := graphemeIdx_spec g chars
    refine Nfa.step_path ⟨(graphemeIdx g chars).1, ?_, ?_⟩
    · exact prefix_getElem? hp h1
    · rw [hc.head.2]
      change send ∈ (List.replicate (graphemeIdx g chars).1 ([] : List Nat) ++ [[send]]).getD (graphemeIdx g chars).1 []
      rw [replicate_getD]; simp
  | .chr .epsilon, c, chars, send, n, hc, hp, w, hw => by
    rw [treeToNfa] at hc
    cases hw
    refine path_of_ep (t := send) ?_ (.nil send)
    rw [hc.head.1]; simp
  | .chr .empty, c, chars, send, n, hc, hp, w, hw => by cases hw

theorem seq_complete : ∀ (ts : List RegexTree) (c : Nat) (chars : List Str) (send : Nat) (n : Nfa),
    Contains n (seqLoop ts c chars send).states c → (seqLoop ts c chars send).chars <+: n.alphabet → ts ≠ [] →
    ∀ w, Matches (.seq ts) w → n.Path (c + 1) w send
  | [], _, _, _, _, _, _, h, _, _ => absurd rfl h
  | t :: ts, c, chars, send, n, hc, hp, _, w, hw => by
    rw [seqLoop] at hc hp
    have hf := treeToNfa_facts t (c + 1) chars c
    have hf2 := seqLoop_facts ts (treeToNfa t (c + 1) chars c).counter (treeToNfa t (c + 1) chars c).chars send
    have h1 := tree_complete t (c + 1) chars c n hc.tail.left (hf2.1.pre.trans hp)
    have hr : Contains n (seqLoop ts (treeToNfa t (c + 1) chars c).counter (treeToNfa t (c + 1) chars c).chars send).states
        (treeToNfa t (c + 1) chars c).counter := by
      have := hc.tail.right
      rwa [← hf.1.counter] at this
    cases hw with
    | seqCons h3 h4 =>
      refine Nfa.path_append.2 ⟨c, h1 _ h3, ?_⟩
      cases ts with
      | nil =>
        cases h4
        refine path_of_ep (t := send) ?_ (.nil send)
        rw [hc.head.1]; simp
      | cons t' ts' =>
        refine path_of_ep (t := (treeToNfa t (c + 1) chars c).counter + 1) ?_
          (seq_complete (t' :: ts') _ _ send n hr hp (by simp) _ h4)
        rw [hc.head.1]; simp

theorem alt_complete : ∀ (ts : List RegexTree) (c : Nat) (chars : List Str) (send : Nat) (n : Nfa),
    Contains n (altLoop ts c chars send).2.states c → (altLoop ts c chars send).2.chars <+: n.alphabet →
    ∀ t ∈ ts, ∀ w, Matches t w → ∃ e ∈ (altLoop ts c chars send).1, n.Path e w send
  | [], _, _, _, _, _, _, _, h, _, _ => by cases h
  | t :: ts, c, chars, send, n, hc, hp, t', ht', w, hw => by
    rw [altLoop] at hc hp ⊢
    have hf := treeToNfa_facts t c chars send
    have hf2 := altLoop_facts ts (treeToNfa t c chars send).counter (treeToNfa t c chars send).chars send
    have h1 := tree_complete t c chars send n hc.left (hf2.1.pre.trans hp)
    have hr : Contains n (altLoop ts (treeToNfa t c chars send).counter (treeToNfa t c chars send).chars send).2.states
        (treeToNfa t c chars send).counter := by
      have := hc.right
      rwa [← hf.1.counter] at this
    rcases List.mem_cons.1 ht' with rfl | ht'
    · exact ⟨c, List.mem_cons_self, h1 w hw⟩
    · obtain ⟨e, he, hpath⟩ := alt_complete ts _ _ send n hr hp t' ht' w hw
      exact ⟨e, List.mem_cons_of_mem _ he, hpath⟩

end

/-- A path can be split at the exit of the part: what was read inside matches. -/
def Splits (n : Nfa) (t : RegexTree) (send k : Nat) (w : Word) (f : Nat) : Prop :=
  ∃ k' u v, k' < k ∧ w = u ++ v ∧ Matches t u ∧ n.PathN k' send v f

mutual

theorem tree_sound : ∀ (t : RegexTree) (c : Nat) (chars : List Str) (send : Nat) (n : Nfa),
    Contains n (treeToNfa t c chars send).states c → (treeToNfa t c chars send).chars <+: n.alphabet → n.alphabet.Nodup →
    ∀ (k : Nat) (w : Word) (f : Nat), (f < c ∨ (treeToNfa t c chars send).counter ≤ f) → n.PathN k c w f → Splits n t send k w f
  | .seq [], c, chars, send, n, hc, _, _, k, w, f, hf, hpath => by
    rw [treeToNfa] at hc hf
    cases k with
    | zero => obtain ⟨_, rfl⟩ := hpath; simp only at hf; omega
    | succ k =>
      rcases hpath with ⟨t, h1, h2⟩ | ⟨e, w', t, _, h1, _⟩
      · rw [hc.head.1] at h1
        rw [List.mem_singleton.1 h1] at h2
        exact ⟨k, [], w, by omega, rfl, .seqNil, h2⟩
      · exact absurd h1 (no_step hc.head.2 rfl)
  | .seq (t :: ts), c, chars, send, n, hc, hp, hnd, k, w, f, hf, hpath => by
    rw [treeToNfa] at hc hf hp
    have hfa := seqLoop_facts (t :: ts) (c + 1) chars send
    have h3 := hfa.2 (by simp)
    simp only at hf
    cases k with
    | zero => obtain ⟨_, rfl⟩ := hpath; omega
    | succ k =>
      rcases hpath with ⟨x, h1, h2⟩ | ⟨e, w', x, _, h1, _⟩
      · rw [hc.head.1] at h1
        rw [List.mem_singleton.1 h1] at h2
        obtain ⟨k', u, v, a1, a2, a3, a4⟩ := seq_sound (t :: ts) (c + 1) chars send n hc.tail hp hnd (by simp) k w f (by omega) h2
        exact ⟨k', u, v, by omega, a2, a3, a4⟩
      · exact absurd h1 (no_step hc.head.2 rfl)
  | .alt ts, c, chars, send, n, hc, hp, hnd, k, w, f, hf, hpath => by
    rw [treeToNfa] at hc hf hp
    have hfa := (altLoop_facts ts (c + 1) chars send).1.counter
    simp only at hf
    cases k with
    | zero => obtain ⟨_, rfl⟩ := hpath; omega
    | succ k =>
      rcases hpath with ⟨x, h1, h2⟩ | ⟨e, w', x, _, h1, _⟩
      · rw [hc.head.1] at h1
        obtain ⟨k', u, v, a1, a2, a3, a4⟩ := alt_sound ts (c + 1) chars send n hc.tail hp hnd x h1 k w f (by omega) h2
        exact ⟨k', u, v, by omega, a2, a3, a4⟩
      · exact absurd h1 (no_step hc.head.2 rfl)
  | .rep t, c, chars, send, n, hc, hp, hnd, k, w, f, hf, hpath => by
    rw [treeToNfa] at hc hf hp
    have hfa := (treeToNfa_facts t (c + 1) chars c).1.counter
    simp only at hf
    have ih := tree_sound t (c + 1) chars c n hc.tail hp hnd
    have hep := hc.head.1
    have hst := hc.head.2
    clear hc
    induction k using Nat.strong_induction_on generalizing w with
    | _ k ihk =>
      cases k with
      | zero => obtain ⟨_, rfl⟩ := hpath; omega
      | succ k =>
        rcases hpath with ⟨x, h1, h2⟩ | ⟨e, w', x, _, h1, _⟩
        · rw [hep] at h1
          simp only [List.mem_cons, List.not_mem_nil, or_false] at h1
          rcases h1 with rfl | rfl
          · obtain ⟨k', u, v, a1, a2, a3, a4⟩ := ih k w f (by omega) h2
            obtain ⟨k2, u2, v2, b1, b2, b3, b4⟩ := ihk k' (by omega) v a4
            exact ⟨k2, u ++ u2, v2, by omega, by rw [a2, b2, List.append_assoc], .repCons a3 b3, b4⟩
          · exact ⟨k, [], w, by omega, rfl, .repNil, h2⟩
        · exact absurd h1 (no_step hst rfl)
  | .chr (.grapheme g), c, chars, send, n, hc, hp, hnd, k, w, f, hf, hpath => by
    rw [treeToNfa] at hc hf hp
    obtain ⟨hg, _⟩ := graphemeIdx_spec g chars
    simp only at hf
    cases k with
    | zero => obtain ⟨_, rfl⟩ := hpath; omega
    | succ k =>
      rcases hpath with ⟨x, h1, _⟩ | ⟨e, w', x, rfl, ⟨i, h1, h2⟩, h3⟩
      · rw [hc.head.1] at h1; cases h1
      · rw [hc.head.2] at h2
        have h2' : x ∈ (List.replicate (graphemeIdx g chars).1 ([] : List Nat) ++ [[send]]).getD i [] := h2
        rw [replicate_getD] at h2'
        split at h2'
        · rename_i hi
          rw [List.mem_singleton.1 h2'] at h3
          have hge : n.alphabet[(graphemeIdx g chars).1]? = some g := prefix_getElem? hp hg
          rw [hi, hge] at h1
          cases h1
          exact ⟨k, [g], w', by omega, rfl, .grapheme g, h3⟩
        · cases h2'
  | .chr .epsilon, c, chars, send, n, hc, _, _, k, w, f, hf, hpath => by
    rw [treeToNfa] at hc hf
    cases k with
    | zero => obtain ⟨_, rfl⟩ := hpath; simp only at hf; omega
    | succ k =>
      rcases hpath with ⟨t, h1, h2⟩ | ⟨e, w', t, _, h1, _⟩
      · rw [hc.head.1] at h1
        rw [List.mem_singleton.1 h1] at h2
        exact ⟨k, [], w, by omega, rfl, .epsilon, h2⟩
      · exact absurd h1 (no_step hc.head.2 rfl)
  | .chr .empty, c, chars, send, n, hc, _, _, k, w, f, hf, hpath => by
    rw [treeToNfa] at hc hf
    cases k with
    | zero => obtain ⟨_, rfl⟩ := hpath; simp only at hf; omega
    | succ k =>
      rcases hpath with ⟨t, h1, h2⟩ | ⟨e, w', t, _, h1, _⟩
      · rw [hc.head.1] at h1; cases h1
      · exact absurd h1 (no_step hc.head.2 rfl)

theorem seq_sound : ∀ (ts : List RegexTree) (c : Nat) (chars : List Str) (send : Nat) (n : Nfa),
    Contains n (seqLoop ts c chars send).states c → (seqLoop ts c chars send).chars <+: n.alphabet → n.alphabet.Nodup → ts ≠ [] →
    ∀ (k : Nat) (w : Word) (f : Nat), (f < c ∨ (seqLoop ts c chars send).counter ≤ f) → n.PathN k (c + 1) w f →
      Splits n (.seq ts) send k w f
  | [], _, _, _, _, _, _, _, h, _, _, _, _, _ => absurd rfl h
  | t :: ts, c, chars, send, n, hc, hp, hnd, _, k, w, f, hf, hpath => by
    rw [seqLoop] at hc hp hf
    have hf1 := treeToNfa_facts t (c + 1) chars c
    have hf2 := seqLoop_facts ts (treeToNfa t (c + 1) chars c).counter (treeToNfa t (c + 1) chars c).chars send
    have hr : Contains n (seqLoop ts (treeToNfa t (c + 1) chars c).counter (treeToNfa t (c + 1) chars c).chars send).states
        (treeToNfa t (c + 1) chars c).counter := by
      have := hc.tail.right
      rwa [← hf1.1.counter] at this
    simp only at hf
    have hc1 := hf1.1.counter
    have hc2 := hf2.1.counter
    obtain ⟨k', u, v, a1, a2, a3, a4⟩ := tree_sound t (c + 1) chars c n hc.tail.left (hf2.1.pre.trans hp) hnd k w f (by omega) hpath
    cases k' with
    | zero => obtain ⟨_, rfl⟩ := a4; omega
    | succ k' =>
      rcases a4 with ⟨x, h1, h2⟩ | ⟨e, w', x, _, h1, _⟩
      · rw [hc.head.1] at h1
        cases ts with
        | nil =>
          simp only [List.isEmpty_nil, if_true, List.mem_singleton] at h1
          subst h1
          refine ⟨k', u, v, by omega, a2, ?_, h2⟩
          have := Matches.seqCons a3 .seqNil
          rwa [List.append_nil] at this
        | cons t' ts' =>
          simp only [List.isEmpty_cons, Bool.false_eq_true, if_false, List.mem_singleton] at h1
          subst h1
          obtain ⟨k2, u2, v2, b1, b2, b3, b4⟩ := seq_sound (t' :: ts') _ _ send n hr hp hnd (by simp) k' v f (by omega) h2
          exact ⟨k2, u ++ u2, v2, by omega, by rw [a2, b2, List.append_assoc], .seqCons a3 b3, b4⟩
      · exact absurd h1 (no_step hc.head.2 rfl)

theorem alt_sound : ∀ (ts : List RegexTree) (c : Nat) (chars : List Str) (send : Nat) (n : Nfa),
    Contains n (altLoop ts c chars send).2.states c → (altLoop ts c chars send).2.chars <+: n.alphabet → n.alphabet.Nodup →
    ∀ e ∈ (altLoop ts c chars send).1, ∀ (k : Nat) (w : Word) (f : Nat), (f < c ∨ (altLoop ts c chars send).2.counter ≤ f) →
      n.PathN k e w f → Splits n (.alt ts) send k w f
  | [], _, _, _, _, _, _, _, _, h, _, _, _, _, _ => by cases h
  | t :: ts, c, chars, send, n, hc, hp, hnd, e, he, k, w, f, hf, hpath => by
    rw [altLoop] at hc hp hf he
    have hf1 := treeToNfa_facts t c chars send
    have hf2 := altLoop_facts ts (treeToNfa t c chars send).counter (treeToNfa t c chars send).chars send
    have hr : Contains n (altLoop ts (treeToNfa t c chars send).counter (treeToNfa t c chars send).chars send).2.states
        (treeToNfa t c chars send).counter := by
      have := hc.right
      rwa [← hf1.1.counter] at this
    simp only at hf
    have hc1 := hf1.1.counter
    have hc2 := hf2.1.counter
    rcases List.mem_cons.1 he with rfl | he
    · obtain ⟨k', u, v, a1, a2, a3, a4⟩ := tree_sound t _ chars send n hc.left (hf2.1.pre.trans hp) hnd k w f (by omega) hpath
      exact ⟨k', u, v, a1, a2, .alt List.mem_cons_self a3, a4⟩
    · obtain ⟨k', u, v, a1, a2, a3, a4⟩ := alt_sound ts _ _ send n hr hp hnd e he k w f (by omega) hpath
      refine ⟨k', u, v, a1, a2, ?_, a4⟩
      cases a3 with
      | alt h1 h2 => exact .alt (List.mem_cons_of_mem _ h1) h2

end

theorem resize_getD {len a : Nat} {row : List (List Nat)} (h : row.length ≤ len) : (resize len row).getD a [] = row.getD a [] := by
  unfold resize
  rw [List.take_of_length_le h, List.getD_eq_getElem?_getD, List.getD_eq_getElem?_getD, List.getElem?_append]
  split
  · rfl
  · rename_i h2
    rw [List.getElem?_eq_none (l := row) (by omega)]
    cases h3 : (List.replicate (len - row.length) ([] : List Nat))[a - row.length]? with
    | none => rfl
    | some x =>
      have := List.mem_of_getElem? h3
      rw [List.mem_replicate] at this
      rw [this.2]; rfl

theorem resize_length {len : Nat} {row : List (List Nat)} (h : row.length ≤ len) : (resize len row).length = len := by
  unfold resize
  rw [List.take_of_length_le h]
  simp; omega

/-- The states of the result before resizing the rows. -/
theorem toNfa_state (t : RegexTree) (q : Nat) : (toNfa t).state q =
    match q with
    | 0 => ⟨numStr 0, false, true, [], resize (treeToNfa t 2 [] 0).chars.length []⟩
    | 1 => ⟨numStr 1, true, false, [2], resize (treeToNfa t 2 [] 0).chars.length []⟩
    | q + 2 => match (treeToNfa t 2 [] 0).states[q]? with
      | none => default
      | some s => { s with transitions := resize (treeToNfa t 2 [] 0).chars.length s.transitions } := by
  unfold Nfa.state toNfa
  match q with
  | 0 => rfl
  | 1 => rfl
  | q + 2 =>
    simp only [List.getD_eq_getElem?_getD, List.map_cons, List.getElem?_cons_succ, List.getElem?_map]
    cases (treeToNfa t 2 [] 0).states[q]? <;> rfl

theorem toNfa_contains (t : RegexTree) : Contains (toNfa t) (treeToNfa t 2 [] 0).states 2 := by
  intro k s hk
  have hf := (treeToNfa_facts t 2 [] 0).1
  unfold Nfa.ep Nfa.tr
  rw [show 2 + k = k + 2 by omega, toNfa_state]
  simp only [hk]
  refine ⟨trivial, fun a => ?_⟩
  exact resize_getD (hf.row s (List.mem_of_getElem? hk))

theorem foldl_chars (gs : List Str) : ∀ chars : List Str, chars.Nodup →
    (gs.foldl (fun l g => if g ∈ l then l else l ++ [g]) chars).Nodup ∧
    (∀ x, x ∈ gs.foldl (fun l g => if g ∈ l then l else l ++ [g]) chars ↔ x ∈ chars ∨ x ∈ gs) := by
  induction gs with
  | nil => intro chars h; exact ⟨h, by simp⟩
  | cons g gs ih =>
    intro chars h
    rw [List.foldl_cons]
    split
    · rename_i hg
      obtain ⟨h1, h2⟩ := ih chars h
      refine ⟨h1, fun x => ?_⟩
      rw [h2, List.mem_cons]
      constructor
      · rintro (h | h)
        · exact Or.inl h
        · exact Or.inr (Or.inr h)
      · rintro (h | rfl | h)
        · exact Or.inl h
        · exact Or.inl hg
        · exact Or.inr h
    · rename_i hg
      have hnd : (chars ++ [g]).Nodup := by
        rw [List.nodup_append]
        exact ⟨h, by simp, by intro a ha b hb; simp at hb; subst hb; rintro rfl; exact hg ha⟩
      obtain ⟨h1, h2⟩ := ih _ hnd
      refine ⟨h1, fun x => ?_⟩
      rw [h2, List.mem_append, List.mem_singleton, List.mem_cons]
      tauto

/-- Order of first occurrence. -/
theorem foldl_order (gs : List Str) : ∀ (pre chars : List Str), (∀ x, x ∈ chars ↔ x ∈ pre) →
    chars.Pairwise (fun a b => (pre ++ gs).idxOf a < (pre ++ gs).idxOf b) →
    (gs.foldl (fun l g => if g ∈ l then l else l ++ [g]) chars).Pairwise
      (fun a b => (pre ++ gs).idxOf a < (pre ++ gs).idxOf b) := by
  induction gs with
  | nil => intro pre chars _ h; exact h
  | cons g gs ih =>
    intro pre chars hm hp
    have e : pre ++ g :: gs = (pre ++ [g]) ++ gs := by simp
    rw [List.foldl_cons, e]
    rw [e] at hp
    apply ih
    · intro x
      split
      · rename_i hg
        rw [hm, List.mem_append, List.mem_singleton]
        constructor
        · exact Or.inl
        · rintro (h | rfl)
          · exact h
          · exact (hm _).1 hg
      · simp [hm]
    · split
      · exact hp
      · rename_i hg
        rw [List.pairwise_append]
        refine ⟨hp, by simp, ?_⟩
        intro a ha b hb
        rw [List.mem_singleton] at hb
        subst hb
        have ha' := (hm a).1 ha
        have hb' : b ∉ pre := fun h => hg ((hm b).2 h)
        rw [List.append_assoc, List.idxOf_append_of_mem ha', List.idxOf_append_of_notMem hb']
        have := List.idxOf_lt_length_of_mem ha'
        omega

theorem toNfa_states_get (t : RegexTree) (q : Nat) : (toNfa t).states[q]? =
    match q with
    | 0 => some ⟨numStr 0, false, true, [], resize (treeToNfa t 2 [] 0).chars.length []⟩
    | 1 => some ⟨numStr 1, true, false, [2], resize (treeToNfa t 2 [] 0).chars.length []⟩
    | q + 2 => ((treeToNfa t 2 [] 0).states[q]?).map
        (fun s => { s with transitions := resize (treeToNfa t 2 [] 0).chars.length s.transitions }) := by
  unfold toNfa
  match q with
  | 0 => rfl
  | 1 => rfl
  | q + 2 => simp only [List.map_cons, List.getElem?_cons_succ, List.getElem?_map]

theorem toNfa_alphabet (t : RegexTree) :
    (toNfa t).alphabet = t.graphemes.foldl (fun l g => if g ∈ l then l else l ++ [g]) [] := (treeToNfa_facts t 2 [] 0).1.chars_eq

theorem toNfa_length (t : RegexTree) : (toNfa t).states.length = (treeToNfa t 2 [] 0).counter := by
  rw [(treeToNfa_facts t 2 [] 0).1.counter]
  unfold toNfa
  simp; omega

/-- Name and flags of every state of the result. -/
theorem toNfa_flags (t : RegexTree) (q : Nat) (s : NfaState) (h : (toNfa t).states[q]? = some s) :
    s.name = numStr q ∧ (s.initial = true ↔ q = 1) ∧ (s.accepting = true ↔ q = 0) := by
  rw [toNfa_states_get] at h
  match q, h with
  | 0, h => cases h; simp
  | 1, h => cases h; simp
  | q + 2, h =>
    dsimp only at h
    cases h1 : (treeToNfa t 2 [] 0).states[q]? with
    | none => rw [h1] at h; cases h
    | some s' =>
      rw [h1] at h
      cases h
      have := (treeToNfa_facts t 2 [] 0).1.names q s' h1
      refine ⟨by rw [show q + 2 = 2 + q by omega]; exact this.1, ?_, ?_⟩
      · simp [this.2.1]
      · simp [this.2.2]

theorem resize_mem {len : Nat} {row : List (List Nat)} {ts : List Nat} (h : ts ∈ resize len row) : ts ∈ row ∨ ts = [] := by
  unfold resize at h
  rcases List.mem_append.1 h with h | h
  · exact Or.inl (List.mem_of_mem_take h)
  · exact Or.inr (List.mem_replicate.1 h).2

theorem toNfa_wf (t : RegexTree) : (toNfa t).WF := by
  have hf := (treeToNfa_facts t 2 [] 0).1
  have hcnt := hf.counter
  have hne := (treeToNfa_facts t 2 [] 0).2
  have hmem : ∀ s ∈ (toNfa t).states, ∃ q : Nat, (toNfa t).states[q]? = some s := fun s hs => List.mem_iff_getElem?.1 hs
  refine ⟨?_, ?_, ?_, ?_, ?_, ?_, ?_⟩
  · rw [toNfa_alphabet]
    exact (foldl_chars t.graphemes [] List.nodup_nil).1
  · rw [List.nodup_iff_getElem?_ne_getElem?]
    intro i j hij hj he
    simp only [List.length_map] at hj
    rw [List.getElem?_map, List.getElem?_map, List.getElem?_eq_getElem hj, List.getElem?_eq_getElem (by omega)] at he
    have h1 := (toNfa_flags t i _ (List.getElem?_eq_getElem (by omega))).1
    have h2 := (toNfa_flags t j _ (List.getElem?_eq_getElem hj)).1
    simp only [Option.map_some, Option.some.injEq] at he
    rw [h1, h2] at he
    have := numStr_inj he
    omega
  · intro s hs
    obtain ⟨q, hq⟩ := hmem s hs
    rw [toNfa_states_get] at hq
    match q, hq with
    | 0, hq => cases hq; exact resize_length (Nat.zero_le _)
    | 1, hq => cases hq; exact resize_length (Nat.zero_le _)
    | q + 2, hq =>
      dsimp only at hq
      cases h1 : (treeToNfa t 2 [] 0).states[q]? with
      | none => rw [h1] at hq; cases hq
      | some s' =>
        rw [h1] at hq; cases hq
        exact resize_length (hf.row s' (List.mem_of_getElem? h1))
  · intro s hs ts hts x hx
    obtain ⟨q, hq⟩ := hmem s hs
    rw [toNfa_length]
    rw [toNfa_states_get] at hq
    match q, hq with
    | 0, hq =>
      cases hq
      rcases resize_mem hts with h | rfl
      · cases h
      · cases hx
    | 1, hq =>
      cases hq
      rcases resize_mem hts with h | rfl
      · cases h
      · cases hx
    | q + 2, hq =>
      dsimp only at hq
      cases h1 : (treeToNfa t 2 [] 0).states[q]? with
      | none => rw [h1] at hq; cases hq
      | some s' =>
        rw [h1] at hq; cases hq
        rcases resize_mem hts with h | rfl
        · have := hf.trans s' (List.mem_of_getElem? h1) ts h x hx
          omega
        · cases hx
  · intro s hs x hx
    obtain ⟨q, hq⟩ := hmem s hs
    rw [toNfa_length]
    rw [toNfa_states_get] at hq
    match q, hq with
    | 0, hq => cases hq; cases hx
    | 1, hq =>
      cases hq
      rw [List.mem_singleton.1 hx]; omega
    | q + 2, hq =>
      dsimp only at hq
      cases h1 : (treeToNfa t 2 [] 0).states[q]? with
      | none => rw [h1] at hq; cases hq
      | some s' =>
        rw [h1] at hq; cases hq
        have := hf.eps s' (List.mem_of_getElem? h1) x hx
        omega
  · rw [toNfa_length]; change 1 < _; omega
  · intro i s hs
    exact (toNfa_flags t i s hs).2.1

theorem toNfa_lang (t : RegexTree) (w : Word) : (toNfa t).Lang w ↔ Matches t w := by
  have hp : (treeToNfa t 2 [] 0).chars <+: (toNfa t).alphabet := List.prefix_refl _
  have hep0 : (toNfa t).ep 0 = [] := by unfold Nfa.ep; rw [toNfa_state]
  have hep1 : (toNfa t).ep 1 = [2] := by unfold Nfa.ep; rw [toNfa_state]
  have hno : ∀ q, q = 0 ∨ q = 1 → ∀ e x, ¬ (toNfa t).Step q e x := by
    rintro q (rfl | rfl) e x ⟨i, _, h⟩
    · unfold Nfa.tr at h
      rw [toNfa_state] at h
      dsimp only at h
      rw [resize_getD (row := []) (Nat.zero_le _)] at h
      cases h
    · unfold Nfa.tr at h
      rw [toNfa_state] at h
      dsimp only at h
      rw [resize_getD (row := []) (Nat.zero_le _)] at h
      cases h
  constructor
  · rintro ⟨q, h1, s, h2, h3⟩
    have hq : q = 0 := (toNfa_flags t q s h2).2.2.1 h3
    subst hq
    obtain ⟨k, hk⟩ := Nfa.pathN_iff.1 h1
    change (toNfa t).PathN k 1 w 0 at hk
    cases k with
    | zero => obtain ⟨_, h⟩ := hk; cases h
    | succ k =>
      rcases hk with ⟨x, h4, h5⟩ | ⟨e, w', x, _, h4, _⟩
      · rw [hep1, List.mem_singleton] at h4
        subst h4
        obtain ⟨k', u, v, _, hw, hm, hv⟩ := tree_sound t 2 [] 0 (toNfa t) (toNfa_contains t) hp (toNfa_wf t).alphabet_nodup k w 0
          (Or.inl (by omega)) h5
        cases k' with
        | zero => obtain ⟨rfl, _⟩ := hv; rw [hw, List.append_nil]; exact hm
        | succ k' =>
          rcases hv with ⟨x, h4, _⟩ | ⟨e, w', x, _, h4, _⟩
          · rw [hep0] at h4; cases h4
          · exact absurd h4 (hno 0 (Or.inl rfl) _ _)
      · exact absurd h4 (hno 1 (Or.inr rfl) _ _)
  · intro hm
    refine ⟨0, ?_, _, rfl, rfl⟩
    change (toNfa t).Path 1 w 0
    exact path_of_ep (t := 2) (by rw [hep1]; simp) (tree_complete t 2 [] 0 (toNfa t) (toNfa_contains t) hp w hm)

theorem matches_rep_iff {t : RegexTree} {w : Word} : Matches (.rep t) w ↔ ∃ l : List Word, w = l.flatten ∧ ∀ u ∈ l, Matches t u := by
  constructor
  · have key : ∀ t' w, Matches t' w → t' = RegexTree.rep t → ∃ l : List Word, w = l.flatten ∧ ∀ u ∈ l, Matches t u := by
      intro t' w h
      induction h with
      | grapheme | epsilon | seqNil | seqCons | alt => intro h; cases h
      | repNil => intro _; exact ⟨[], rfl, by simp⟩
      | repCons h1 _ _ ih =>
        intro h; cases h
        obtain ⟨l, rfl, h2⟩ := ih rfl
        exact ⟨_ :: l, rfl, by intro u hu; rcases List.mem_cons.1 hu with rfl | hu; exact h1; exact h2 u hu⟩
    exact fun h => key _ w h rfl
  · rintro ⟨l, rfl, h⟩
    induction l with
    | nil => exact .repNil
    | cons u l ih => exact .repCons (h u List.mem_cons_self) (ih fun v hv => h v (List.mem_cons_of_mem _ hv))

mutual
theorem matches_denote : ∀ (t : RegexTree) (w : Word), Matches t w ↔ w ∈ t.denote
  | .seq ts, w => by rw [RegexTree.denote]; exact matches_denoteSeq ts w
  | .alt ts, w => by
    rw [RegexTree.denote, ← matches_denoteAlt ts w]
    constructor
    · intro h; cases h with | alt h1 h2 => exact ⟨_, h1, h2⟩
    · rintro ⟨t, h1, h2⟩; exact .alt h1 h2
  | .rep t, w => by
    rw [RegexTree.denote, matches_rep_iff, Language.mem_kstar]
    constructor
    · rintro ⟨l, h1, h2⟩; exact ⟨l, h1, fun u hu => (matches_denote t u).1 (h2 u hu)⟩
    · rintro ⟨l, h1, h2⟩; exact ⟨l, h1, fun u hu => (matches_denote t u).2 (h2 u hu)⟩
  | .chr (.grapheme g), w => by
    rw [RegexTree.denote]
    constructor
    · intro h; cases h; exact rfl
    · intro h; rw [show w = [g] from h]; exact .grapheme g
  | .chr .epsilon, w => by
    rw [RegexTree.denote, Language.mem_one]
    constructor
    · intro h; cases h; rfl
    · rintro rfl; exact .epsilon
  | .chr .empty, w => by
    rw [RegexTree.denote]
    constructor
    · intro h; cases h
    · intro h; exact absurd h (Language.notMem_zero w)
theorem matches_denoteSeq : ∀ (ts : List RegexTree) (w : Word), Matches (.seq ts) w ↔ w ∈ RegexTree.denoteSeq ts
  | [], w => by
    rw [RegexTree.denoteSeq, Language.mem_one]
    constructor
    · intro h; cases h; rfl
    · rintro rfl; exact .seqNil
  | t :: ts, w => by
    rw [RegexTree.denoteSeq, Language.mem_mul]
    constructor
    · intro h
      cases h with
      | seqCons h1 h2 => exact ⟨_, (matches_denote t _).1 h1, _, (matches_denoteSeq ts _).1 h2, rfl⟩
    · rintro ⟨u, h1, v, h2, rfl⟩
      exact .seqCons ((matches_denote t _).2 h1) ((matches_denoteSeq ts _).2 h2)
theorem matches_denoteAlt : ∀ (ts : List RegexTree) (w : Word), (∃ t ∈ ts, Matches t w) ↔ w ∈ RegexTree.denoteAlt ts
  | [], w => by
    rw [RegexTree.denoteAlt]
    constructor
    · rintro ⟨_, h, _⟩; cases h
    · intro h; exact absurd h (Language.notMem_zero w)
  | t :: ts, w => by
    rw [RegexTree.denoteAlt, Language.mem_add, ← matches_denote t w, ← matches_denoteAlt ts w]
    simp
end

end Dandy
