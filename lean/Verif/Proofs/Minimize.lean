import Verif.Proofs.Hopcroft
/-! # Merging and minimization -/

set_option linter.unusedSectionVars false

namespace Dandy
namespace Dfa

theorem lookup_eq_some_iff {l : List (Nat × Nat)} (hn : (l.map (·.1)).Nodup) {k v : Nat} :
    l.lookup k = some v ↔ (k, v) ∈ l := by
  induction l with
  | nil => simp
  | cons p l ih =>
    obtain ⟨a, b⟩ := p
    simp only [List.map_cons, List.nodup_cons] at hn
    by_cases h : k = a
    · subst h
      rw [List.lookup_cons_self]
      constructor
      · intro h; cases h; simp
      · intro h
        rw [List.mem_cons] at h
        rcases h with h | h
        · cases h; rfl
        · exact absurd (List.mem_map.2 ⟨_, h, rfl⟩) hn.1
    · have : (k == a) = false := by simpa using h
      rw [List.lookup_cons, this, ih hn.2]
      simp only [List.mem_cons, Prod.mk.injEq]
      constructor
      · exact Or.inr
      · rintro (⟨h1, _⟩ | h1)
        · exact absurd h1 h
        · exact h1

theorem mem_of_lookup {l : List (Nat × Nat)} {k v : Nat} (h : l.lookup k = some v) : (k, v) ∈ l := by
  induction l with
  | nil => simp at h
  | cons p l ih =>
    obtain ⟨a, b⟩ := p
    by_cases hk : k = a
    · subst hk
      rw [List.lookup_cons_self] at h; cases h; simp
    · have : (k == a) = false := by simpa using hk
      rw [List.lookup_cons, this] at h
      exact List.mem_cons_of_mem _ (ih h)

/-- The map to representatives computed in `merge_nondistinguishable_states`. -/
def rep (ord : List Nat → List Nat) (P : List (List Nat)) (q : Nat) : Nat :=
  ((P.flatMap (classPairs ord)).lookup q).getD q

theorem mem_classPairs {ord : List Nat → List Nat} {B : List Nat} {q r : Nat} :
    (q, r) ∈ classPairs ord B ↔ ∃ rest, ord B = r :: rest ∧ q ∈ rest := by
  unfold classPairs
  cases ord B with
  | nil => simp
  | cons a l =>
    simp only [List.mem_map, Prod.mk.injEq, List.cons.injEq]
    constructor
    · rintro ⟨x, hx, rfl, rfl⟩; exact ⟨l, ⟨rfl, rfl⟩, hx⟩
    · rintro ⟨rest, ⟨rfl, rfl⟩, h⟩; exact ⟨q, h, rfl, rfl⟩

theorem keys_eq {ord : List Nat → List Nat} {P : List (List Nat)} :
    (P.flatMap (classPairs ord)).map (·.1) = P.flatMap (fun B => (ord B).tail) := by
  rw [List.map_flatMap]
  congr 1
  funext B
  unfold classPairs
  cases ord B with
  | nil => rfl
  | cons a l => simp [Function.comp_def]

section
variable {ord : List Nat → List Nat} (hord : ∀ l, (ord l).Perm l) {d : Dfa} {P : List (List Nat)} (hP : ClassesOk d P)
include hord hP

theorem flat_nodup : (P.flatMap ord).Nodup := by
  have h1 : (P.flatMap ord).Perm P.flatten := by
    have : ∀ Q : List (List Nat), (Q.flatMap ord).Perm Q.flatten := by
      intro Q
      induction Q with
      | nil => simp
      | cons B Q ih => simp only [List.flatMap_cons, List.flatten_cons]; exact (hord B).append ih
    exact this P
  exact (h1.trans hP.part).nodup_iff.2 List.nodup_range

theorem keys_nodup : ((P.flatMap (classPairs ord)).map (·.1)).Nodup := by
  rw [keys_eq]
  have : ∀ Q : List (List Nat), (Q.flatMap (fun B => (ord B).tail)).Sublist (Q.flatMap ord) := by
    intro Q
    induction Q with
    | nil => simp
    | cons B Q ih => simp only [List.flatMap_cons]; exact (List.tail_sublist _).append ih
  exact (flat_nodup hord hP).sublist (this P)

theorem class_exists {q : Nat} (hq : q < d.states.length) : ∃ B ∈ P, q ∈ B := by
  have : q ∈ P.flatten := hP.part.mem_iff.2 (by simpa using hq)
  exact List.mem_flatten.1 this

theorem class_lt {B : List Nat} (hB : B ∈ P) {q : Nat} (hq : q ∈ B) : q < d.states.length := by
  have : q ∈ P.flatten := List.mem_flatten.2 ⟨B, hB, hq⟩
  simpa using hP.part.mem_iff.1 this

theorem ord_class {B : List Nat} (hB : B ∈ P) :
    ∃ r rest, ord B = r :: rest ∧ r ∉ rest ∧ ∀ x, x ∈ B ↔ x = r ∨ x ∈ rest := by
  have hne : ord B ≠ [] := by
    intro hc
    have := (hord B).length_eq
    rw [hc] at this
    exact hP.ne B hB (List.length_eq_zero_iff.1 this.symm)
  have hnd : (ord B).Nodup := (hord B).nodup_iff.2 (sorted_nodup (hP.sorted B hB))
  cases ho : ord B with
  | nil => exact absurd ho hne
  | cons r rest =>
    rw [ho, List.nodup_cons] at hnd
    exact ⟨r, rest, rfl, hnd.1, fun x => by rw [← (hord B).mem_iff, ho, List.mem_cons]⟩

theorem rep_spec {B : List Nat} (hB : B ∈ P) {q : Nat} (hq : q ∈ B) : (ord B).head? = some (rep ord P q) := by
  obtain ⟨r, rest, h1, h2, h3⟩ := ord_class hord hP hB
  have hnd : P.flatten.Nodup := hP.part.nodup_iff.2 List.nodup_range
  rw [h1, List.head?_cons]
  congr 1
  unfold rep
  rcases (h3 q).1 hq with rfl | hqr
  · cases hl : (P.flatMap (classPairs ord)).lookup q with
    | none => rfl
    | some v =>
      rw [lookup_eq_some_iff (keys_nodup hord hP), List.mem_flatMap] at hl
      obtain ⟨C, hC, hl⟩ := hl
      obtain ⟨rest', h4, h5⟩ := mem_classPairs.1 hl
      have hqC : q ∈ C := by rw [← (hord C).mem_iff, h4]; simp [h5]
      have := block_unique hnd hB hC hq hqC
      subst this
      rw [h1] at h4; cases h4
      exact absurd h5 h2
  · have : (P.flatMap (classPairs ord)).lookup q = some r := by
      rw [lookup_eq_some_iff (keys_nodup hord hP), List.mem_flatMap]
      exact ⟨B, hB, mem_classPairs.2 ⟨rest, h1, hqr⟩⟩
    rw [this]; rfl

theorem rep_mem {B : List Nat} (hB : B ∈ P) {q : Nat} (hq : q ∈ B) : rep ord P q ∈ B := by
  have := rep_spec hord hP hB hq
  rw [← (hord B).mem_iff]
  exact List.mem_of_mem_head? this

theorem rep_lt {q : Nat} (hq : q < d.states.length) : rep ord P q < d.states.length := by
  obtain ⟨B, hB, hqB⟩ := class_exists hord hP hq
  exact class_lt hord hP hB (rep_mem hord hP hB hqB)

theorem rep_ind {q : Nat} (hq : q < d.states.length) : d.Ind q (rep ord P q) := by
  obtain ⟨B, hB, hqB⟩ := class_exists hord hP hq
  exact (hP.same B hB q hqB _ (rep_lt hord hP hq)).1 (rep_mem hord hP hB hqB)

theorem rep_eq_of_ind {p q : Nat} (hp : p < d.states.length) (hq : q < d.states.length) (h : d.Ind p q) :
    rep ord P p = rep ord P q := by
  obtain ⟨B, hB, hpB⟩ := class_exists hord hP hp
  have hqB := (hP.same B hB p hpB q hq).2 h
  have h1 := rep_spec hord hP hB hpB
  have h2 := rep_spec hord hP hB hqB
  rw [h1] at h2; exact Option.some.inj h2

theorem rep_rep {q : Nat} (hq : q < d.states.length) : rep ord P (rep ord P q) = rep ord P q :=
  (rep_eq_of_ind hord hP hq (rep_lt hord hP hq) (rep_ind hord hP hq)).symm

theorem mem_keys {q : Nat} : q ∈ (P.flatMap (classPairs ord)).map (·.1) ↔ q < d.states.length ∧ rep ord P q ≠ q := by
  rw [keys_eq, List.mem_flatMap]
  constructor
  · rintro ⟨B, hB, hq⟩
    obtain ⟨r, rest, h1, h2, h3⟩ := ord_class hord hP hB
    rw [h1, List.tail_cons] at hq
    have hqB := (h3 q).2 (Or.inr hq)
    refine ⟨class_lt hord hP hB hqB, ?_⟩
    have := rep_spec hord hP hB hqB
    rw [h1, List.head?_cons] at this
    rw [← Option.some.inj this]
    rintro rfl; exact h2 hq
  · rintro ⟨hq, hne⟩
    obtain ⟨B, hB, hqB⟩ := class_exists hord hP hq
    obtain ⟨r, rest, h1, h2, h3⟩ := ord_class hord hP hB
    have := rep_spec hord hP hB hqB
    rw [h1, List.head?_cons] at this
    refine ⟨B, hB, ?_⟩
    rw [h1, List.tail_cons]
    rcases (h3 q).1 hqB with h | h
    · rw [← Option.some.inj this] at hne; exact absurd h.symm hne
    · exact h

end

theorem merge_eq {ord ordKeys : List Nat → List Nat} (hord : ∀ l, (ord l).Perm l) (hordK : ∀ l, (ordKeys l).Perm l)
    {d : Dfa} (hd : d.WF) {P : List (List Nat)} (hcl : d.stateEquivalenceClassesIdx = some P) (hP : ClassesOk d P) :
    ∃ kept, kept.Pairwise (· < ·) ∧ (∀ q, q ∈ kept ↔ q < d.states.length ∧ rep ord P q = q) ∧
      QuotOk d kept (rep ord P) ∧
      d.mergeNondistinguishableStates ord ordKeys = some (quot d kept (rep ord P)) := by
  generalize hkeys : (P.flatMap (classPairs ord)).map (·.1) = keys
  have hmk : ∀ q, q ∈ ordKeys keys ↔ q < d.states.length ∧ rep ord P q ≠ q := fun q => by
    rw [(hordK keys).mem_iff, ← hkeys]; exact mem_keys hord hP
  have hknd : (ordKeys keys).Nodup := by
    rw [(hordK keys).nodup_iff, ← hkeys]; exact keys_nodup hord hP
  have hkept : ∀ q, q ∈ keptOf d.states.length (ordKeys keys) ↔ q < d.states.length ∧ rep ord P q = q := by
    intro q
    rw [mem_keptOf, hmk]
    constructor
    · rintro ⟨h1, h2⟩; exact ⟨h1, by by_contra hc; exact h2 ⟨h1, hc⟩⟩
    · rintro ⟨h1, h2⟩; exact ⟨h1, fun hc => hc.2 h2⟩
  have hrk : ∀ q < d.states.length, rep ord P q ∈ keptOf d.states.length (ordKeys keys) := fun q hq =>
    (hkept _).2 ⟨rep_lt hord hP hq, rep_rep hord hP hq⟩
  have hok : QuotOk d (keptOf d.states.length (ordKeys keys)) (rep ord P) :=
    ⟨keptOf_nodup _ _, fun q hq => ((hkept q).1 hq).1, hrk _ hd.init_lt,
      fun q hq t ht => hrk _ (hd.targets _ (state_mem ((hkept q).1 hq).1) t ht)⟩
  refine ⟨_, keptOf_sorted _ _, hkept, hok, ?_⟩
  -- the DFA just before the removal
  have hd2 : ∃ d2 : Dfa, d.mergeNondistinguishableStates ord ordKeys = d2.removeStates (ordKeys keys) ∧
      d2.alphabet = d.alphabet ∧ d2.states.length = d.states.length ∧ d2.initialState = rep ord P d.initialState ∧
      ∀ q < d.states.length, rep ord P q = q → d2.state q =
        { d.state q with
          initial := decide (q = rep ord P d.initialState)
          transitions := (d.state q).transitions.map (rep ord P) } := by
    unfold mergeNondistinguishableStates
    rw [hcl]
    simp only [Option.bind_eq_bind, Option.bind_some]
    rw [hkeys]
    refine ⟨_, rfl, ?_⟩
    cases hl : (P.flatMap (classPairs ord)).lookup d.initialState with
    | none =>
      have hr : rep ord P d.initialState = d.initialState := by simp [rep, hl]
      simp only
      refine ⟨rfl, by simp [remapTransitions], by rw [hr]; rfl, ?_⟩
      intro q hq hrq
      apply state_of_getElem?
      simp only [remapTransitions, List.getElem?_map, getElem?_state hq, Option.map_some, Option.some.injEq]
      have := hd.init_flag q _ (getElem?_state hq)
      rw [hr]
      have hflag : (d.state q).initial = decide (q = d.initialState) := by rw [Bool.eq_iff_iff, this]; simp
      rw [← hflag]; rfl
    | some r =>
      have hr : rep ord P d.initialState = r := by simp [rep, hl]
      have hne : rep ord P d.initialState ≠ d.initialState := by
        have : d.initialState ∈ (P.flatMap (classPairs ord)).map (·.1) :=
          List.mem_map.2 ⟨_, mem_of_lookup hl, rfl⟩
        exact ((mem_keys hord hP).1 this).2
      simp only
      refine ⟨rfl, by simp [remapTransitions, setInitial], hr.symm, ?_⟩
      intro q hq hrq
      apply state_of_getElem?
      simp only [remapTransitions, setInitial, List.getElem?_modify, List.getElem?_map, getElem?_state hq,
        Option.map_some, Option.some.injEq]
      have hq' : q ≠ d.initialState := by rintro rfl; exact hne hrq
      have := hd.init_flag q _ (getElem?_state hq)
      rw [hr]
      by_cases hrq2 : r = q
      · subst hrq2
        simp [rep]
      · have hflag : (d.state q).initial = decide (q = r) := by
          rw [Bool.eq_iff_iff, this]; simp [hq', Ne.symm hrq2]
        simp [hrq2, rep, hflag]
  obtain ⟨d2, e1, e2, e3, e4, e5⟩ := hd2
  rw [e1, removeStates_eq hknd (fun i hi => by rw [e3]; exact ((hmk i).1 hi).1)]
  · simp only [quot, e2, e3, e4, Option.some.injEq, Dfa.mk.injEq, true_and, and_true]
    apply List.map_congr_left
    intro q hq
    obtain ⟨h1, h2⟩ := (hkept q).1 hq
    rw [e5 q h1 h2]
    simp
  · rw [e3, e4]; exact rep_lt hord hP hd.init_lt
  · rw [e4]; intro hc; exact ((hmk _).1 hc).2 (rep_rep hord hP hd.init_lt)
  · rw [e3]
    intro q hq hqr t ht
    have hrq : rep ord P q = q := ((hkept q).1 (mem_keptOf.2 ⟨hq, hqr⟩)).2
    rw [e5 q hq hrq] at ht
    simp only [List.mem_map] at ht
    obtain ⟨u, hu, rfl⟩ := ht
    have hul := hd.targets _ (state_mem hq) u hu
    exact ⟨rep_lt hord hP hul, fun hc => ((hmk _).1 hc).2 (rep_rep hord hP hul)⟩

/-- All states distinguishable. -/
def Reduced (d : Dfa) : Prop := ∀ p < d.states.length, ∀ q < d.states.length, d.Ind p q → p = q

/-- All states reachable. -/
def AllReach (d : Dfa) : Prop := ∀ q < d.states.length, d.Reach q

section
variable {ord : List Nat → List Nat} (hord : ∀ l, (ord l).Perm l) {d : Dfa} (hd : d.WF) {P : List (List Nat)}
  (hP : ClassesOk d P) {kept : List Nat} (hk : ∀ q, q ∈ kept ↔ q < d.states.length ∧ rep ord P q = q)
  (hok : QuotOk d kept (rep ord P))
include hord hd hP hk hok

theorem merged_runE {q : Nat} (hq : q < d.states.length) (w : Word) :
    (quot d kept (rep ord P)).runE (kept.idxOf (rep ord P q)) w =
      (d.runE q w).map (fun t => kept.idxOf (rep ord P t)) := by
  apply quot_runE hd hok (fun q hq => (hk _).2 ⟨rep_lt hord hP hq, rep_rep hord hP hq⟩) _ hq
  intro q hq e t u ht hu
  obtain ⟨c, hc, _, hall⟩ := nxt_eq_del ht
  rw [hall] at ht hu
  cases ht; cases hu
  exact rep_eq_of_ind hord hP (del_lt hd (rep_lt hord hP hq) hc) (del_lt hd hq hc)
    ((rep_ind hord hP hq).symm.del hd hc)

theorem merged_acc {q : Nat} (hq : q < d.states.length) :
    ((quot d kept (rep ord P)).state (kept.idxOf (rep ord P q))).accepting = (d.state q).accepting := by
  rw [quot_state ((hk _).2 ⟨rep_lt hord hP hq, rep_rep hord hP hq⟩)]
  exact (rep_ind hord hP hq).acc.symm

theorem merged_lang (w : Word) : (quot d kept (rep ord P)).Lang w ↔ d.Lang w := by
  rw [lang_iff (quot_wf hd hok), lang_iff hd]
  show (∃ q, (quot d kept (rep ord P)).runE (kept.idxOf (rep ord P d.initialState)) w = some q ∧ _) ↔ _
  rw [merged_runE hord hd hP hk hok hd.init_lt]
  cases hr : d.runE d.initialState w with
  | none => simp
  | some r =>
    simp only [Option.map_some, Option.some.injEq, exists_eq_left']
    rw [merged_acc hord hd hP hk hok (runE_lt hd hd.init_lt hr)]

theorem merged_reduced : (quot d kept (rep ord P)).Reduced := by
  intro i hi j hj hij
  have hlen : (quot d kept (rep ord P)).states.length = kept.length := by simp [quot]
  rw [hlen] at hi hj
  have key : ∀ i < kept.length, ∃ q, q ∈ kept ∧ kept.idxOf q = i := by
    intro i hi
    exact ⟨kept[i], List.getElem_mem hi, hok.nodup.idxOf_getElem i hi⟩
  obtain ⟨p, hp, rfl⟩ := key i hi
  obtain ⟨q, hq, rfl⟩ := key j hj
  obtain ⟨p1, p2⟩ := (hk p).1 hp
  obtain ⟨q1, q2⟩ := (hk q).1 hq
  have : d.Ind p q := by
    intro w
    have := hij w
    rw [← p2, ← q2, merged_runE hord hd hP hk hok p1, merged_runE hord hd hP hk hok q1] at this
    by_cases hw : Over d.alphabet w
    · obtain ⟨r, hr⟩ := runE_exists (d := d) p hw
      obtain ⟨s, hs⟩ := runE_exists (d := d) q hw
      rw [hr, hs] at this ⊢
      simp only [Option.map_some, Option.some.injEq] at this ⊢
      rw [merged_acc hord hd hP hk hok (runE_lt hd p1 hr), merged_acc hord hd hP hk hok (runE_lt hd q1 hs)] at this
      exact this
    · have h1 : ∀ q, d.runE q w = none := by
        intro q; rw [runE_none]; unfold Over at hw; push Not at hw; exact hw
      rw [h1, h1]
  have := rep_eq_of_ind hord hP p1 q1 this
  rw [p2, q2] at this
  rw [this]

theorem merged_length : (quot d kept (rep ord P)).states.length = P.length := by
  have hlen : (quot d kept (rep ord P)).states.length = kept.length := by simp [quot]
  rw [hlen, ← List.length_map (f := fun B => (ord B).headD 0) (as := P)]
  apply List.Perm.length_eq
  have hnd : P.flatten.Nodup := hP.part.nodup_iff.2 List.nodup_range
  have hhead : ∀ B ∈ P, (ord B).headD 0 ∈ B ∧ rep ord P ((ord B).headD 0) = (ord B).headD 0 := by
    intro B hB
    obtain ⟨r, rest, h1, h2, h3⟩ := ord_class hord hP hB
    have hr := (h3 r).2 (Or.inl rfl)
    have := rep_spec hord hP hB hr
    rw [h1, List.head?_cons] at this
    rw [h1]
    exact ⟨hr, (Option.some.inj this).symm⟩
  have hPn : P.Nodup := by
    have : ∀ Q : List (List Nat), Q.flatten.Nodup → (∀ B ∈ Q, B ≠ []) → Q.Nodup := by
      intro Q
      induction Q with
      | nil => simp
      | cons B Q ih =>
        intro h1 h2
        rw [List.flatten_cons, List.nodup_append] at h1
        rw [List.nodup_cons]
        refine ⟨fun hc => ?_, ih h1.2.1 (fun C hC => h2 C (List.mem_cons_of_mem _ hC))⟩
        obtain ⟨z, hz⟩ := List.exists_mem_of_ne_nil _ (h2 B (by simp))
        exact h1.2.2 z hz z (List.mem_flatten.2 ⟨B, hc, hz⟩) rfl
    exact this P hnd hP.ne
  rw [List.perm_ext_iff_of_nodup hok.nodup]
  · intro q
    rw [List.mem_map, hk]
    constructor
    · rintro ⟨h1, h2⟩
      obtain ⟨B, hB, hq⟩ := class_exists hord hP h1
      refine ⟨B, hB, ?_⟩
      have := rep_spec hord hP hB hq
      rw [h2] at this
      rw [List.headD_eq_head?_getD, this]; rfl
    · rintro ⟨B, hB, rfl⟩
      exact ⟨class_lt hord hP hB (hhead B hB).1, (hhead B hB).2⟩
  · rw [List.nodup_map_iff_inj_on hPn]
    intro B hB C hC hBC
    exact block_unique hnd hB hC (hhead B hB).1 (by rw [hBC]; exact (hhead C hC).1)

theorem merged_allReach (h : d.AllReach) : (quot d kept (rep ord P)).AllReach := by
  intro i hi
  have hlen : (quot d kept (rep ord P)).states.length = kept.length := by simp [quot]
  rw [hlen] at hi
  have hq : kept[i] ∈ kept := List.getElem_mem hi
  obtain ⟨q1, q2⟩ := (hk _).1 hq
  obtain ⟨w, hw⟩ := h _ q1
  refine ⟨w, ?_⟩
  show (quot d kept (rep ord P)).runE (kept.idxOf (rep ord P d.initialState)) w = _
  rw [merged_runE hord hd hP hk hok hd.init_lt, hw]
  simp only [Option.map_some, q2]
  rw [hok.nodup.idxOf_getElem]

end

theorem quot_id_allReach {d : Dfa} (hd : d.WF) {kept : List Nat} (hk : ∀ q, q ∈ kept ↔ d.Reach q)
    (hok : QuotOk d kept id) : (quot d kept id).AllReach := by
  intro i hi
  have hlen : (quot d kept id).states.length = kept.length := by simp [quot]
  rw [hlen] at hi
  obtain ⟨w, hw⟩ := (hk _).1 (List.getElem_mem hi)
  refine ⟨w, ?_⟩
  show (quot d kept id).runE (kept.idxOf d.initialState) w = _
  rw [(quot_id_runE hd hok (q := d.initialState) hok.init w).1, hw]
  simp only [Option.map_some]
  rw [hok.nodup.idxOf_getElem]

/-- Two words leading to distinguishable states lead to different states in every equivalent DFA. -/
theorem ind_of_same_target {m o : Dfa} (hm : m.WF) (ho : o.WF) (hl : ∀ w, m.Lang w ↔ o.Lang w)
    {u v : Word} {p q r : Nat} (hu : m.runE m.initialState u = some p) (hv : m.runE m.initialState v = some q)
    (hu' : o.runE o.initialState u = some r) (hv' : o.runE o.initialState v = some r) : m.Ind p q := by
  intro w
  have h1 := hl (u ++ w)
  have h2 := hl (v ++ w)
  rw [lang_iff hm, lang_iff ho, runE_append, runE_append, hu, hu'] at h1
  rw [lang_iff hm, lang_iff ho, runE_append, runE_append, hv, hv'] at h2
  simp only [Option.bind_some] at h1 h2
  have h3 := h1.trans h2.symm
  by_cases hw : Over m.alphabet w
  · obtain ⟨a, ha⟩ := runE_exists (d := m) p hw
    obtain ⟨b, hb⟩ := runE_exists (d := m) q hw
    rw [ha, hb] at h3 ⊢
    simp only [Option.some.injEq, exists_eq_left'] at h3
    simp only [Option.map_some, Option.some.injEq]
    rw [Bool.eq_iff_iff]; exact h3
  · have h1 : ∀ q, m.runE q w = none := by
      intro q; rw [runE_none]; unfold Over at hw; push Not at hw; exact hw
    rw [h1, h1]

/-- A reduced DFA with only reachable states is minimal. -/
theorem minimal_of_reduced {m o : Dfa} (hm : m.WF) (ho : o.WF) (hr : m.Reduced) (hre : m.AllReach)
    (ha : SameElems m.alphabet o.alphabet) (hl : ∀ w, m.Lang w ↔ o.Lang w) : m.states.length ≤ o.states.length := by
  classical
  have hex : ∀ q, ∃ r, q < m.states.length → r < o.states.length ∧
      ∃ w, m.runE m.initialState w = some q ∧ o.runE o.initialState w = some r := by
    intro q
    by_cases hq : q < m.states.length
    · obtain ⟨w, hw⟩ := hre q hq
      obtain ⟨r, hr⟩ := runE_exists (d := o) o.initialState (w := w) (fun e he => (ha e).1 (over_of_runE hw e he))
      exact ⟨r, fun _ => ⟨runE_lt ho ho.init_lt hr, w, hw, hr⟩⟩
    · exact ⟨0, fun h => absurd h hq⟩
  choose g hg using hex
  have hnd : ((List.range m.states.length).map g).Nodup := by
    rw [List.nodup_map_iff_inj_on List.nodup_range]
    intro p hp q hq hpq
    rw [List.mem_range] at hp hq
    obtain ⟨_, u, hu, hu'⟩ := hg p hp
    obtain ⟨_, v, hv, hv'⟩ := hg q hq
    rw [hpq] at hu'
    exact hr p hp q hq (ind_of_same_target hm ho hl hu hv hu' hv')
  have := nodup_length_le hnd (n := o.states.length) (by
    intro x hx
    obtain ⟨q, hq, rfl⟩ := List.mem_map.1 hx
    exact (hg q (by simpa using hq)).1)
  simpa using this

/-- Reduced equivalent DFAs over the same alphabet with only reachable states are isomorphic. -/
theorem iso_of_reduced {m o : Dfa} (hm : m.WF) (ho : o.WF) (hrm : m.Reduced) (hro : o.Reduced) (hem : m.AllReach)
    (heo : o.AllReach) (ha : m.alphabet = o.alphabet) (hl : ∀ w, m.Lang w ↔ o.Lang w) : ∃ φ, Dfa.Iso m o φ := by
  classical
  have hlo : ∀ w, o.Lang w ↔ m.Lang w := fun w => (hl w).symm
  have hex : ∀ q, ∃ r, q < m.states.length → ∃ w, m.runE m.initialState w = some q ∧ o.runE o.initialState w = some r := by
    intro q
    by_cases hq : q < m.states.length
    · obtain ⟨w, hw⟩ := hem q hq
      obtain ⟨r, hr⟩ := runE_exists (d := o) o.initialState (w := w) (by rw [← ha]; exact over_of_runE hw)
      exact ⟨r, fun _ => ⟨w, hw, hr⟩⟩
    · exact ⟨0, fun h => absurd h hq⟩
  choose φ hφ using hex
  -- every word leading to `q` in `m` leads to `φ q` in `o`
  have huniq : ∀ w q, m.runE m.initialState w = some q → o.runE o.initialState w = some (φ q) := by
    intro w q hw
    obtain ⟨u, hu, hu'⟩ := hφ q (runE_lt hm hm.init_lt hw)
    obtain ⟨r, hr⟩ := runE_exists (d := o) o.initialState (w := w) (by rw [← ha]; exact over_of_runE hw)
    have := hro _ (runE_lt ho ho.init_lt hr) _ (runE_lt ho ho.init_lt hu') (ind_of_same_target ho hm hlo hr hu' hw hu)
    rw [hr, this]
  refine ⟨φ, ha, ?_, ?_, ?_, ?_, ?_, ?_⟩
  · exact Nat.le_antisymm (minimal_of_reduced hm ho hrm hem (fun e => by rw [ha]) hl)
      (minimal_of_reduced ho hm hro heo (fun e => by rw [ha]) hlo)
  · intro q hq
    obtain ⟨w, _, hw'⟩ := hφ q hq
    exact runE_lt ho ho.init_lt hw'
  · intro p hp q hq hpq
    obtain ⟨u, hu, hu'⟩ := hφ p hp
    obtain ⟨v, hv, hv'⟩ := hφ q hq
    rw [hpq] at hu'
    exact hrm p hp q hq (ind_of_same_target hm ho hl hu hv hu' hv')
  · have := huniq [] m.initialState rfl
    simpa [runE] using this.symm
  · intro q s t hs ht
    have hq := lt_of_getElem? hs
    obtain ⟨w, hw, hw'⟩ := hφ q hq
    have := hl w
    rw [lang_iff hm, lang_iff ho, hw, hw'] at this
    simp only [Option.some.injEq, exists_eq_left', state_of_getElem? hs, state_of_getElem? ht] at this
    rw [Bool.eq_iff_iff]; exact this.symm
  · intro q s t hs ht
    have hq := lt_of_getElem? hs
    have hφq := lt_of_getElem? ht
    obtain ⟨w, hw, hw'⟩ := hφ q hq
    have hs' := state_of_getElem? hs
    have ht' := state_of_getElem? ht
    have l1 := hm.row_len _ (List.mem_of_getElem? hs)
    have l2 := ho.row_len _ (List.mem_of_getElem? ht)
    apply List.ext_getElem?
    intro c
    by_cases hc : c < m.alphabet.length
    · have hc' : c < o.alphabet.length := by rw [← ha]; exact hc
      have n1 := nxt_del hm hc q
      have n2 := nxt_del ho hc' (φ q)
      have r1 : m.runE m.initialState (w ++ [m.alphabet.getD c []]) = some (m.del q c) := by
        rw [runE_append, hw]; simp only [Option.bind_some, runE, n1]
      have r2 : o.runE o.initialState (w ++ [o.alphabet.getD c []]) = some (o.del (φ q) c) := by
        rw [runE_append, hw']; simp only [Option.bind_some, runE, n2]
      have := huniq _ _ r1
      rw [ha] at this
      rw [r2] at this
      have h3 := Option.some.inj this
      unfold del at h3
      rw [hs', ht'] at h3
      rw [List.getElem?_map, getElem?_of_lt 0 (by omega), getElem?_of_lt 0 (by omega), h3]
      rfl
    · have hc' : ¬ c < o.alphabet.length := by rw [← ha]; exact hc
      rw [List.getElem?_eq_none (by omega), List.getElem?_eq_none (by simp; omega)]

/-- Everything about `minimize`. -/
theorem minimize_spec {ordU ord ordKeys : List Nat → List Nat} (hU : ∀ l, (ordU l).Perm l)
    (hord : ∀ l, (ord l).Perm l) (hK : ∀ l, (ordKeys l).Perm l) {d : Dfa} (hd : d.WF) :
    ∃ m, d.minimize ordU ord ordKeys = some m ∧ m.WF ∧ m.alphabet = d.alphabet ∧ (∀ w, m.Lang w ↔ d.Lang w) ∧
      m.Reduced ∧ m.AllReach := by
  obtain ⟨kept, _, h2, h3, h4⟩ := removeUnreachableStates_eq hU hd
  have hwf := quot_wf hd h3
  obtain ⟨P, p1, p2⟩ := classes_spec hwf
  obtain ⟨kept', _, k2, k3, k4⟩ := merge_eq hord hK hwf p1 p2
  refine ⟨_, ?_, quot_wf hwf k3, rfl, ?_, merged_reduced hord hwf p2 k2 k3,
    merged_allReach hord hwf p2 k2 k3 (quot_id_allReach hd h2 h3)⟩
  · rw [minimize, h4]; exact k4
  · intro w; rw [merged_lang hord hwf p2 k2 k3, quot_id_lang hd h3]

end Dfa
end Dandy
