import Verif.Proofs.DfaQuot
/-! # Hopcroft's partition refinement -/

namespace Dandy
namespace Dfa

/-- No word distinguishes the two states. -/
def Ind (d : Dfa) (p q : Nat) : Prop :=
  ∀ w, (d.runE p w).map (fun r => (d.state r).accepting) = (d.runE q w).map (fun r => (d.state r).accepting)

theorem Ind.refl (d : Dfa) (p : Nat) : d.Ind p p := fun _ => rfl
theorem Ind.symm {d : Dfa} {p q : Nat} (h : d.Ind p q) : d.Ind q p := fun w => (h w).symm
theorem Ind.trans {d : Dfa} {p q r : Nat} (h : d.Ind p q) (h' : d.Ind q r) : d.Ind p r := fun w => (h w).trans (h' w)

/-- Transition by column. -/
def del (d : Dfa) (q c : Nat) : Nat := (d.state q).transitions.getD c 0

theorem Ind.acc {d : Dfa} {p q : Nat} (h : d.Ind p q) : (d.state p).accepting = (d.state q).accepting := by
  have := h []
  simpa [runE] using this

theorem nxt_del {d : Dfa} (hd : d.WF) {c : Nat} (hc : c < d.alphabet.length) (q : Nat) :
    d.nxt q (d.alphabet.getD c []) = some (d.del q c) := by
  unfold nxt
  rw [revGet_of_getElem? hd.alphabet_nodup (getElem?_of_lt [] hc)]
  rfl

theorem nxt_eq_del {d : Dfa} {q t : Nat} {e : Str} (h : d.nxt q e = some t) :
    ∃ c < d.alphabet.length, d.alphabet[c]? = some e ∧ ∀ p, d.nxt p e = some (d.del p c) := by
  unfold nxt at h
  cases hr : revGet d.alphabet e with
  | none => simp [hr] at h
  | some c => exact ⟨c, revGet_lt hr, revGet_some hr, fun p => by unfold nxt; rw [hr]; rfl⟩

theorem del_lt {d : Dfa} (hd : d.WF) {q c : Nat} (hq : q < d.states.length) (hc : c < d.alphabet.length) :
    d.del q c < d.states.length := nxt_lt hd hq (nxt_del hd hc q)

theorem Ind.del {d : Dfa} (hd : d.WF) {p q c : Nat} (h : d.Ind p q) (hc : c < d.alphabet.length) :
    d.Ind (d.del p c) (d.del q c) := by
  intro w
  have := h (d.alphabet.getD c [] :: w)
  simpa only [runE, nxt_del hd hc, Option.bind_some] using this

/-- A relation respecting acceptance and transitions is contained in indistinguishability. -/
theorem ind_of_rel {d : Dfa} (hd : d.WF) (R : Nat → Nat → Prop)
    (hacc : ∀ p q, p < d.states.length → q < d.states.length → R p q → (d.state p).accepting = (d.state q).accepting)
    (hstep : ∀ p q c, p < d.states.length → q < d.states.length → c < d.alphabet.length → R p q →
      R (d.del p c) (d.del q c)) {p q : Nat} (hp : p < d.states.length) (hq : q < d.states.length) (h : R p q) :
    d.Ind p q := by
  intro w
  induction w generalizing p q with
  | nil => simpa [runE] using hacc p q hp hq h
  | cons e w ih =>
    simp only [runE]
    by_cases he : e ∈ d.alphabet
    · obtain ⟨t, ht⟩ := nxt_exists (d := d) (q := p) he
      obtain ⟨c, hc, _, hall⟩ := nxt_eq_del ht
      rw [hall p, hall q]
      exact ih (del_lt hd hp hc) (del_lt hd hq hc) (hstep p q c hp hq hc h)
    · rw [nxt_none.2 he, nxt_none.2 he]

/-- Two states are in the same blocks. -/
def Same (P : List (List Nat)) (p q : Nat) : Prop := ∀ B ∈ P, p ∈ B ↔ q ∈ B

/-- Closed under indistinguishability. -/
def Sat (d : Dfa) (B : List Nat) : Prop := ∀ p ∈ B, ∀ q < d.states.length, d.Ind p q → q ∈ B

/-- The central invariant: states in the same block whose successors agree on all pending splitters have successors in
the same block. -/
def Stable (d : Dfa) (P : List (List Nat)) (Ws : Nat → List (List Nat)) : Prop :=
  ∀ c < d.alphabet.length, ∀ p < d.states.length, ∀ q < d.states.length, Same P p q →
    (∀ S ∈ Ws c, d.del p c ∈ S ↔ d.del q c ∈ S) → Same P (d.del p c) (d.del q c)

/-- Invariant of the refinement. `ex c` are splitters that still have to be applied for column `c` in addition to the
worklist. -/
structure HInv (d : Dfa) (P W : List (List Nat)) (ex : Nat → List (List Nat)) : Prop where
  part : P.flatten.Perm (List.range d.states.length)
  ne : ∀ B ∈ P, B ≠ []
  sorted : ∀ B ∈ P, B.Pairwise (· < ·)
  sat : ∀ B ∈ P, d.Sat B
  satW : ∀ B ∈ W, d.Sat B
  acc : ∀ p < d.states.length, ∀ q < d.states.length, Same P p q → (d.state p).accepting = (d.state q).accepting
  stable : d.Stable P (fun c => W ++ ex c)

theorem swapRemove_spec {α : Type} {l : List α} {i : Nat} {y : α} (h : l[i]? = some y) :
    (swapRemove l i).length + 1 = l.length ∧ (∀ x ∈ swapRemove l i, x ∈ l) ∧ ∀ x ∈ l, x ≠ y → x ∈ swapRemove l i := by
  rcases List.eq_nil_or_concat l with rfl | ⟨init, z, rfl⟩
  · simp at h
  · unfold swapRemove
    simp only [List.concat_eq_append, List.getLast?_append, List.getLast?_singleton, Option.some_or]
    have hi := lt_of_getElem? h
    simp only [List.concat_eq_append, List.length_append, List.length_singleton] at hi
    by_cases hlt : i < init.length
    · have h1 : ((init ++ [z]).set i z).dropLast = init.set i z := by
        rw [List.set_append_left _ _ hlt, List.dropLast_concat]
      rw [h1]
      refine ⟨by simp, ?_, ?_⟩
      · intro x hx
        rcases List.mem_or_eq_of_mem_set hx with h2 | h2
        · simp [h2]
        · simp [h2]
      · intro x hx hne
        rw [List.mem_append, List.mem_singleton] at hx
        rcases hx with hx | rfl
        · obtain ⟨j, hj⟩ := List.getElem?_of_mem hx
          have hij : i ≠ j := by
            rintro rfl
            simp only [List.concat_eq_append] at h
            rw [List.getElem?_append_left hlt] at h
            rw [h] at hj
            exact hne (Option.some.inj hj).symm
          exact List.mem_of_getElem? (i := j) (by rw [List.getElem?_set_ne hij]; exact hj)
        · exact List.mem_of_getElem? (i := i) (by rw [List.getElem?_set_self hlt])
    · have hie : i = init.length := by omega
      subst hie
      have h1 : ((init ++ [z]).set init.length z).dropLast = init := by
        rw [List.set_append_right _ _ (Nat.le_refl _)]; simp
      rw [h1]
      have hz : z = y := by simpa using h
      refine ⟨by simp, fun x hx => by simp [hx], fun x hx hne => ?_⟩
      rw [List.mem_append, List.mem_singleton] at hx
      rcases hx with hx | rfl
      · exact hx
      · exact absurd hz hne

theorem splitW_spec (w : List (List Nat)) (y i f : List Nat) :
    (splitW w y i f).length = w.length + 1 ∧
    (∀ S ∈ splitW w y i f, S ∈ w ∨ S = i ∨ S = f) ∧
    (∀ S ∈ w, S ≠ y → S ∈ splitW w y i f) ∧
    (i ∈ splitW w y i f ∨ f ∈ splitW w y i f) ∧
    (y ∈ w → y ∈ splitW w y i f ∨ (i ∈ splitW w y i f ∧ f ∈ splitW w y i f)) := by
  unfold splitW
  cases h : w.findIdx? (· == y) with
  | some idx =>
    have hidx : w[idx]? = some y := by
      rw [List.findIdx?_eq_some_iff_getElem] at h
      obtain ⟨h1, h2, _⟩ := h
      rw [List.getElem?_eq_getElem h1]
      simpa using h2
    obtain ⟨h1, h2, h3⟩ := swapRemove_spec hidx
    refine ⟨?_, ?_, ?_, ?_, ?_⟩
    · simp only [List.length_append, List.length_cons, List.length_nil]; omega
    · intro S hS
      simp only [List.mem_append, List.mem_cons, List.not_mem_nil, or_false] at hS
      rcases hS with hS | hS
      · exact Or.inl (h2 S hS)
      · exact Or.inr hS
    · intro S hS hne; simp [h3 S hS hne]
    · simp
    · intro _; simp
  | none =>
    rw [List.findIdx?_eq_none_iff] at h
    have hy : y ∉ w := by
      intro hc; simpa using h y hc
    dsimp only
    split
    · refine ⟨by simp, ?_, ?_, by simp, fun hc => absurd hc hy⟩
      · intro S hS; simp only [List.mem_append, List.mem_singleton] at hS; tauto
      · intro S hS _; simp [hS]
    · refine ⟨by simp, ?_, ?_, by simp, fun hc => absurd hc hy⟩
      · intro S hS; simp only [List.mem_append, List.mem_singleton] at hS; tauto
      · intro S hS _; simp [hS]

theorem same_split {done ys : List (List Nat)} {y i f : List Nat} (hu : ∀ z, z ∈ y ↔ z ∈ i ∨ z ∈ f) {p q : Nat}
    (h : Same (done ++ i :: f :: ys) p q) : Same (done ++ y :: ys) p q := by
  intro B hB
  simp only [List.mem_append, List.mem_cons] at hB
  rcases hB with hB | rfl | hB
  · exact h B (by simp [hB])
  · rw [hu, hu, h i (by simp), h f (by simp)]
  · exact h B (by simp [hB])

/-- Splitting one block keeps the invariant. -/
theorem hinv_split {d : Dfa} {done ys W : List (List Nat)} {ex : Nat → List (List Nat)} {y x : List Nat}
    (h : HInv d (done ++ y :: ys) W ex) (hx : d.Sat x)
    (h1 : y.filter (· ∈ x) ≠ []) (h2 : y.filter (· ∉ x) ≠ []) :
    HInv d (done ++ y.filter (· ∈ x) :: y.filter (· ∉ x) :: ys)
      (splitW W y (y.filter (· ∈ x)) (y.filter (· ∉ x))) ex := by
  have hu : ∀ z, z ∈ y ↔ z ∈ y.filter (· ∈ x) ∨ z ∈ y.filter (· ∉ x) := by
    intro z; simp only [List.mem_filter, decide_eq_true_eq]; tauto
  have hdisj : ∀ z, z ∈ y.filter (· ∈ x) ↔ z ∈ y ∧ z ∉ y.filter (· ∉ x) := by
    intro z; simp only [List.mem_filter, decide_eq_true_eq]; tauto
  have hy : y ∈ done ++ y :: ys := by simp
  have hs1 : d.Sat (y.filter (· ∈ x)) := by
    intro p hp q hq hi
    simp only [List.mem_filter, decide_eq_true_eq] at hp ⊢
    exact ⟨h.sat y hy p hp.1 q hq hi, hx p hp.2 q hq hi⟩
  have hlt : ∀ p ∈ y, p < d.states.length := by
    intro p hp
    have : p ∈ (done ++ y :: ys).flatten := List.mem_flatten.2 ⟨y, hy, hp⟩
    simpa using h.part.mem_iff.1 this
  have hs2 : d.Sat (y.filter (· ∉ x)) := by
    intro p hp q hq hi
    simp only [List.mem_filter, decide_eq_true_eq] at hp ⊢
    exact ⟨h.sat y hy p hp.1 q hq hi, fun hc => hp.2 (hx q hc p (hlt p hp.1) hi.symm)⟩
  obtain ⟨w1, w2, w3, w4, w5⟩ := splitW_spec W y (y.filter (· ∈ x)) (y.filter (· ∉ x))
  generalize hi : y.filter (· ∈ x) = i at *
  generalize hf : y.filter (· ∉ x) = f at *
  have hcase : ∀ B ∈ done ++ i :: f :: ys, B = i ∨ B = f ∨ B ∈ done ++ y :: ys := by
    intro B hB
    simp only [List.mem_append, List.mem_cons] at hB ⊢
    tauto
  refine ⟨?_, ?_, ?_, ?_, ?_, ?_, ?_⟩
  · have hp : (i ++ f).Perm y := by
      rw [← hi, ← hf]
      have := List.filter_append_perm (fun z => decide (z ∈ x)) y
      have h3 : (y.filter (fun z => decide (z ∉ x))) = y.filter (fun z => !decide (z ∈ x)) := by
        apply List.filter_congr; intro z _; simp
      rw [h3]; exact this
    refine List.Perm.trans ?_ h.part
    simp only [List.flatten_append, List.flatten_cons]
    rw [← List.append_assoc i f]
    exact (hp.append_right _).append_left _
  · intro B hB
    rcases hcase B hB with rfl | rfl | hB
    · exact h1
    · exact h2
    · exact h.ne B hB
  · intro B hB
    rcases hcase B hB with rfl | rfl | hB
    · rw [← hi]; exact (h.sorted y hy).sublist List.filter_sublist
    · rw [← hf]; exact (h.sorted y hy).sublist List.filter_sublist
    · exact h.sorted B hB
  · intro B hB
    rcases hcase B hB with rfl | rfl | hB
    · exact hs1
    · exact hs2
    · exact h.sat B hB
  · intro S hS
    rcases w2 S hS with h3 | rfl | rfl
    · exact h.satW S h3
    · exact hs1
    · exact hs2
  · intro p hp q hq hs
    exact h.acc p hp q hq (same_split hu hs)
  · intro c hc p hp q hq hs hS
    have hS' : ∀ S ∈ W ++ ex c, d.del p c ∈ S ↔ d.del q c ∈ S := by
      intro S hSm
      rw [List.mem_append] at hSm
      rcases hSm with hSm | hSm
      · by_cases hSy : S = y
        · subst hSy
          rcases w5 hSm with h3 | ⟨h3, h4⟩
          · exact hS S (List.mem_append.2 (Or.inl h3))
          · rw [hu, hu, hS i (List.mem_append.2 (Or.inl h3)), hS f (List.mem_append.2 (Or.inl h4))]
        · exact hS S (List.mem_append.2 (Or.inl (w3 S hSm hSy)))
      · exact hS S (List.mem_append.2 (Or.inr hSm))
    have hst := h.stable c hc p hp q hq (same_split hu hs) hS'
    have hyy := hst y hy
    intro B hB
    rcases hcase B hB with rfl | rfl | hB
    · rcases w4 with h3 | h3
      · exact hS B (List.mem_append.2 (Or.inl h3))
      · have := hS f (List.mem_append.2 (Or.inl h3))
        rw [hdisj, hdisj, hyy, this]
    · rcases w4 with h3 | h3
      · have h4 := hS i (List.mem_append.2 (Or.inl h3))
        have hd2 : ∀ z, z ∈ B ↔ z ∈ y ∧ z ∉ i := by
          intro z
          rw [← hi, ← hf]
          simp only [List.mem_filter, decide_eq_true_eq]; tauto
        rw [hd2, hd2, hyy, h4]
      · exact hS B (List.mem_append.2 (Or.inl h3))
    · exact hst B hB

/-- One full pass over the partition for the splitter `x`. -/
theorem splitAll_spec {d : Dfa} {x : List Nat} (hx : d.Sat x) (ys : List (List Nat)) {ex : Nat → List (List Nat)} :
    ∀ (done W : List (List Nat)), HInv d (done ++ ys) W ex →
      (∀ B ∈ done, (∀ z ∈ B, z ∈ x) ∨ ∀ z ∈ B, z ∉ x) →
      HInv d (done ++ (splitAll x ys W).1) (splitAll x ys W).2 ex ∧
      (∀ B ∈ done ++ (splitAll x ys W).1, (∀ z ∈ B, z ∈ x) ∨ ∀ z ∈ B, z ∉ x) ∧
      (splitAll x ys W).2.length + ys.length = W.length + (splitAll x ys W).1.length := by
  induction ys with
  | nil =>
    intro done W h hdone
    simp only [splitAll, List.append_nil] at h ⊢
    exact ⟨h, hdone, by simp⟩
  | cons y ys ih =>
    intro done W h hdone
    simp only [splitAll]
    split
    · rename_i hc
      have h' := hinv_split h hx hc.1 hc.2
      have e1 : done ++ y.filter (· ∈ x) :: y.filter (· ∉ x) :: ys = (done ++ [y.filter (· ∈ x), y.filter (· ∉ x)]) ++ ys := by
        simp
      rw [e1] at h'
      obtain ⟨h1, h2, h3⟩ := ih _ _ h' (by
        intro B hB
        simp only [List.mem_append, List.mem_cons, List.not_mem_nil, or_false] at hB
        rcases hB with hB | rfl | rfl
        · exact hdone B hB
        · left; intro z hz; simp only [List.mem_filter, decide_eq_true_eq] at hz; exact hz.2
        · right; intro z hz; simp only [List.mem_filter, decide_eq_true_eq] at hz; exact hz.2)
      have e2 : ∀ r : List (List Nat), done ++ y.filter (· ∈ x) :: y.filter (· ∉ x) :: r =
          (done ++ [y.filter (· ∈ x), y.filter (· ∉ x)]) ++ r := by intro r; simp
      refine ⟨by rw [e2]; exact h1, by rw [e2]; exact h2, ?_⟩
      have := (splitW_spec W y (y.filter (· ∈ x)) (y.filter (· ∉ x))).1
      simp only [List.length_cons]
      omega
    · rename_i hc
      have e1 : done ++ y :: ys = (done ++ [y]) ++ ys := by simp
      rw [e1] at h
      obtain ⟨h1, h2, h3⟩ := ih _ _ h (by
        intro B hB
        simp only [List.mem_append, List.mem_singleton] at hB
        rcases hB with hB | rfl
        · exact hdone B hB
        · by_cases h4 : B.filter (· ∈ x) = []
          · right
            intro z hz hzx
            have : z ∈ B.filter (· ∈ x) := by simp [hz, hzx]
            rw [h4] at this; simp at this
          · left
            have h5 : B.filter (· ∉ x) = [] := by
              by_contra h5; exact hc ⟨h4, h5⟩
            intro z hz
            by_contra hzx
            have : z ∈ B.filter (· ∉ x) := by simp [hz, hzx]
            rw [h5] at this; simp at this)
      have e2 : ∀ r : List (List Nat), done ++ y :: r = (done ++ [y]) ++ r := by intro r; simp
      refine ⟨by rw [e2]; exact h1, by rw [e2]; exact h2, ?_⟩
      simp only [List.length_cons]
      omega

theorem HInv.same_block {d : Dfa} {P W : List (List Nat)} {ex} (h : HInv d P W ex) {p : Nat} (hp : p < d.states.length) :
    ∃ B ∈ P, p ∈ B := by
  have : p ∈ P.flatten := h.part.mem_iff.2 (by simpa using hp)
  exact List.mem_flatten.1 this

theorem sat_preImage {d : Dfa} (hd : d.WF) {a : List Nat} (ha : d.Sat a) {c : Nat} (hc : c < d.alphabet.length) :
    d.Sat (d.preImage a c) := by
  intro p hp q hq hi
  simp only [preImage, List.mem_filter, List.mem_range, decide_eq_true_eq] at hp ⊢
  exact ⟨hq, ha _ hp.2 _ (del_lt hd hq hc) (hi.del hd hc)⟩

/-- One column: afterwards the splitter `a` is no longer pending for this column. -/
theorem hopcroft_column {d : Dfa} (hd : d.WF) {P W : List (List Nat)} {a : List Nat} (ha : d.Sat a) {c : Nat}
    (hc : c < d.alphabet.length) {ex ex' : Nat → List (List Nat)} (h : HInv d P W ex)
    (hex : ∀ c', c' ≠ c → ex' c' = ex c') (hexc : ex c = [a]) (hexc' : ex' c = []) :
    HInv d (splitAll (d.preImage a c) P W).1 (splitAll (d.preImage a c) P W).2 ex' ∧
    (splitAll (d.preImage a c) P W).2.length + P.length = W.length + (splitAll (d.preImage a c) P W).1.length := by
  obtain ⟨h1, h2, h3⟩ := splitAll_spec (sat_preImage hd ha hc) P [] W (ex := ex) (by simpa using h) (by simp)
  simp only [List.nil_append] at h1 h2
  refine ⟨⟨h1.part, h1.ne, h1.sorted, h1.sat, h1.satW, h1.acc, ?_⟩, h3⟩
  intro c' hc' p hp q hq hs hS
  apply h1.stable c' hc' p hp q hq hs
  intro S hSm
  by_cases hcc : c' = c
  · subst hcc
    dsimp only at hSm
    rw [hexc, List.mem_append, List.mem_singleton] at hSm
    rcases hSm with hSm | rfl
    · exact hS S (List.mem_append.2 (Or.inl hSm))
    · obtain ⟨B, hB, hpB⟩ := h1.same_block hp
      have hqB := (hs B hB).1 hpB
      have key : p ∈ d.preImage S c' ↔ q ∈ d.preImage S c' := by
        rcases h2 B hB with h4 | h4
        · exact ⟨fun _ => h4 q hqB, fun _ => h4 p hpB⟩
        · exact ⟨fun h => absurd h (h4 p hpB), fun h => absurd h (h4 q hqB)⟩
      simpa [preImage, hp, hq, del] using key
  · apply hS S
    simp only [hex c' hcc]
    exact hSm

theorem hopcroftSymbols_spec {d : Dfa} (hd : d.WF) {a : List Nat} (ha : d.Sat a) (cs : List Nat) (hn : cs.Nodup)
    (hcs : ∀ c ∈ cs, c < d.alphabet.length) :
    ∀ (P W : List (List Nat)), HInv d P W (fun c => if c ∈ cs then [a] else []) →
      let r := hopcroftSymbols d a cs (P, W)
      HInv d r.1 r.2 (fun _ => []) ∧ r.2.length + P.length = W.length + r.1.length := by
  induction cs with
  | nil =>
    intro P W h
    simp only [hopcroftSymbols]
    exact ⟨by simpa using h, by simp⟩
  | cons c cs ih =>
    intro P W h
    rw [List.nodup_cons] at hn
    simp only [hopcroftSymbols]
    obtain ⟨h1, h2⟩ := hopcroft_column hd ha (hcs c (by simp)) (ex' := fun c => if c ∈ cs then [a] else []) h
      (by intro c' hne; simp [hne]) (by simp) (by simp [hn.1])
    obtain ⟨h3, h4⟩ := ih hn.2 (fun c hc => hcs c (List.mem_cons_of_mem _ hc)) _ _ h1
    have e : ((splitAll (d.preImage a c) P W).1, (splitAll (d.preImage a c) P W).2) = splitAll (d.preImage a c) P W := rfl
    rw [e] at h3 h4
    exact ⟨h3, by omega⟩

theorem length_le_flatten {P : List (List Nat)} (h : ∀ B ∈ P, B ≠ []) : P.length ≤ P.flatten.length := by
  induction P with
  | nil => simp
  | cons B P ih =>
    have := ih (fun C hC => h C (List.mem_cons_of_mem _ hC))
    have := List.length_pos_iff.2 (h B (by simp))
    simp only [List.length_cons, List.flatten_cons, List.length_append]
    omega

theorem HInv.length_le {d : Dfa} {P W : List (List Nat)} {ex} (h : HInv d P W ex) : P.length ≤ d.states.length := by
  have h1 := length_le_flatten h.ne
  have h2 := h.part.length_eq
  rw [List.length_range] at h2; omega

theorem hopcroftLoop_spec {d : Dfa} (hd : d.WF) : ∀ (k : Nat) (P W : List (List Nat)),
    HInv d P W (fun _ => []) → d.states.length + W.length + 1 ≤ k + P.length → W.length ≤ P.length → 
    ∃ P', hopcroftLoop d k P W = some P' ∧ HInv d P' [] (fun _ => []) := by
  intro k
  induction k with
  | zero => intro P W h hk _; have := h.length_le; omega
  | succ k ih =>
    intro P W h hk hW
    simp only [hopcroftLoop]
    rcases List.eq_nil_or_concat W with rfl | ⟨init, a, rfl⟩
    · exact ⟨P, rfl, h⟩
    · simp only [List.concat_eq_append] at h hk hW ⊢
      simp only [List.getLast?_append, List.getLast?_singleton, Option.some_or, List.dropLast_concat]
      have h' : HInv d P init (fun c => if c ∈ List.range d.alphabet.length then [a] else []) := by
        refine ⟨h.part, h.ne, h.sorted, h.sat, fun B hB => h.satW B (by simp [hB]), h.acc, ?_⟩
        intro c hc p hp q hq hs hS
        apply h.stable c hc p hp q hq hs
        intro S hSm
        apply hS
        simp only [List.mem_range, hc, if_true]
        simpa using hSm
      obtain ⟨h1, h2⟩ := hopcroftSymbols_spec hd (h.satW a (by simp)) (List.range d.alphabet.length) List.nodup_range
        (by simp) P init h'
      simp only [List.length_append, List.length_singleton] at hk hW
      apply ih _ _ h1
      · omega
      · omega

theorem block_unique {P : List (List Nat)} (h : P.flatten.Nodup) {B C : List Nat} {z : Nat} (hB : B ∈ P) (hC : C ∈ P)
    (hzB : z ∈ B) (hzC : z ∈ C) : B = C := by
  induction P with
  | nil => simp at hB
  | cons A P ih =>
    rw [List.flatten_cons, List.nodup_append] at h
    obtain ⟨_, h2, h3⟩ := h
    rw [List.mem_cons] at hB hC
    rcases hB with rfl | hB <;> rcases hC with rfl | hC
    · rfl
    · exact absurd rfl (h3 z hzB z (List.mem_flatten.2 ⟨C, hC, hzC⟩))
    · exact absurd rfl (h3 z hzC z (List.mem_flatten.2 ⟨B, hB, hzB⟩))
    · exact ih h2 hB hC

/-- What the classes are. -/
structure ClassesOk (d : Dfa) (P : List (List Nat)) : Prop where
  part : P.flatten.Perm (List.range d.states.length)
  ne : ∀ B ∈ P, B ≠ []
  sorted : ∀ B ∈ P, B.Pairwise (· < ·)
  same : ∀ B ∈ P, ∀ p ∈ B, ∀ q < d.states.length, (q ∈ B ↔ d.Ind p q)

theorem classesOk_of_hinv {d : Dfa} (hd : d.WF) {P : List (List Nat)} (h : HInv d P [] (fun _ => [])) :
    ClassesOk d P := by
  refine ⟨h.part, h.ne, h.sorted, ?_⟩
  intro B hB p hp q hq
  have hlt : ∀ B ∈ P, ∀ p ∈ B, p < d.states.length := by
    intro B hB p hp
    have : p ∈ P.flatten := List.mem_flatten.2 ⟨B, hB, hp⟩
    simpa using h.part.mem_iff.1 this
  have hplt := hlt B hB p hp
  constructor
  · intro hqB
    -- blocks are disjoint, so being in one common block is being in the same blocks
    have hnd : P.flatten.Nodup := h.part.nodup_iff.2 List.nodup_range
    have hsame : Same P p q := by
      intro C hC
      have huniq : ∀ z, z ∈ B → (z ∈ C ↔ C = B) := by
        intro z hz
        constructor
        · intro hzC
          exact block_unique hnd hC hB hzC hz
        · rintro rfl; exact hz
      rw [huniq p hp, huniq q hqB]
    refine ind_of_rel hd (Same P) (fun p q hp hq hs => h.acc p hp q hq hs) ?_ hplt hq hsame
    intro p q c hp hq hc hs
    exact h.stable c hc p hp q hq hs (by simp)
  · intro hi
    exact h.sat B hB p hp q hq hi

theorem classes_spec {d : Dfa} (hd : d.WF) :
    ∃ P, d.stateEquivalenceClassesIdx = some P ∧ ClassesOk d P := by
  have hfilter : ∀ (f : Nat → Bool) q, q ∈ (List.range d.states.length).filter f ↔ q < d.states.length ∧ f q = true := by
    intro f q; simp
  unfold stateEquivalenceClassesIdx
  generalize hF : (List.range d.states.length).filter (fun i => (d.state i).accepting) = F
  generalize hN : (List.range d.states.length).filter (fun i => !(d.state i).accepting) = N
  have mF : ∀ q, q ∈ F ↔ q < d.states.length ∧ (d.state q).accepting = true := by intro q; rw [← hF]; simp
  have mN : ∀ q, q ∈ N ↔ q < d.states.length ∧ (d.state q).accepting = false := by intro q; rw [← hN]; simp
  have hperm : (F ++ N).Perm (List.range d.states.length) := by
    rw [← hF, ← hN]
    exact List.filter_append_perm (fun i => (d.state i).accepting) (List.range d.states.length)
  have sF : F.Pairwise (· < ·) := by rw [← hF]; exact sorted_filter_range _ _
  have sN : N.Pairwise (· < ·) := by rw [← hN]; exact sorted_filter_range _ _
  -- a single class: all states have the same acceptance
  have single : ∀ (b : Bool) (C : List Nat), C.Perm (List.range d.states.length) → C.Pairwise (· < ·) →
      (∀ q < d.states.length, (d.state q).accepting = b) → ClassesOk d [C] := by
    intro b C hC hsort hall
    have hmem : ∀ q, q ∈ C ↔ q < d.states.length := fun q => by rw [hC.mem_iff]; simp
    refine ⟨by simpa using hC, ?_, by simpa using hsort, ?_⟩
    · simp only [List.mem_singleton, forall_eq]
      have := (hmem _).2 hd.init_lt
      exact List.ne_nil_of_mem this
    · simp only [List.mem_singleton, forall_eq]
      intro p hp q hq
      refine ⟨fun _ => ?_, fun _ => (hmem q).2 hq⟩
      exact ind_of_rel hd (fun _ _ => True) (fun p q hp hq _ => by rw [hall p hp, hall q hq]) (fun _ _ _ _ _ _ _ => trivial)
        ((hmem p).1 hp) hq trivial
  by_cases hFe : F = []
  · simp only [hFe, if_true]
    refine ⟨_, rfl, single false N (by simpa [hFe] using hperm) sN ?_⟩
    intro q hq
    by_contra hc
    have := (mF q).2 ⟨hq, by simpa using hc⟩
    rw [hFe] at this; simp at this
  · by_cases hNe : N = []
    · simp only [hFe, hNe, if_true, if_false]
      refine ⟨_, rfl, single true F (by simpa [hNe] using hperm) sF ?_⟩
      intro q hq
      by_contra hc
      have := (mN q).2 ⟨hq, by simpa using hc⟩
      rw [hNe] at this; simp at this
    · simp only [hFe, hNe, if_false]
      have satF : d.Sat F := by
        intro p hp q hq hi
        rw [mF] at hp ⊢
        exact ⟨hq, by rw [← hi.acc]; exact hp.2⟩
      have satN : d.Sat N := by
        intro p hp q hq hi
        rw [mN] at hp ⊢
        exact ⟨hq, by rw [← hi.acc]; exact hp.2⟩
      have hinv : HInv d [F, N] [F, N] (fun _ => []) := by
        refine ⟨by simpa using hperm, ?_, ?_, ?_, ?_, ?_, ?_⟩
        · intro B hB; simp only [List.mem_cons, List.not_mem_nil, or_false] at hB
          rcases hB with rfl | rfl <;> assumption
        · intro B hB; simp only [List.mem_cons, List.not_mem_nil, or_false] at hB
          rcases hB with rfl | rfl <;> assumption
        · intro B hB; simp only [List.mem_cons, List.not_mem_nil, or_false] at hB
          rcases hB with rfl | rfl <;> assumption
        · intro B hB; simp only [List.mem_cons, List.not_mem_nil, or_false] at hB
          rcases hB with rfl | rfl <;> assumption
        · intro p hp q hq hs
          have := hs F (by simp)
          rw [mF, mF] at this
          rw [Bool.eq_iff_iff]
          exact ⟨fun h => (this.1 ⟨hp, h⟩).2, fun h => (this.2 ⟨hq, h⟩).2⟩
        · intro c hc p hp q hq _ hS B hB
          exact hS B (by simpa using hB)
      obtain ⟨P, h1, h2⟩ := hopcroftLoop_spec hd (2 * d.states.length + 1) _ _ hinv (by simp; omega) (by simp)
      exact ⟨P, h1, classesOk_of_hinv hd h2⟩

end Dfa
end Dandy
