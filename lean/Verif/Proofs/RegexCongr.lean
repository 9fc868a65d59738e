import Verif.Model.RegexParser
import Verif.Model.Chars
/-! # Parsing depends only on the clusters at the positions of the text -/

namespace Dandy
namespace RegexParser
open P

/-- Two parsers do the same on every suffix of `core`, and stop at a suffix of it. -/
def Agree {α : Type} (core : Str) (p q : P α) : Prop :=
  ∀ s, s <:+ core → p s = q s ∧ ∀ a r, p s = some (a, r) → r <:+ core

variable {core : Str}

theorem Agree.map {α β : Type} {p q : P α} (h : Agree core p q) (f : α → β) : Agree core (P.map f p) (P.map f q) := by
  intro s hs
  obtain ⟨h1, h2⟩ := h s hs
  refine ⟨by simp only [P.map, h1], fun a r he => ?_⟩
  unfold P.map at he
  split at he
  · cases he
  · rename_i x y hp
    cases he
    exact h2 _ _ hp

theorem Agree.pair {α β : Type} {p q : P α} {p' q' : P β} (h : Agree core p q) (h' : Agree core p' q') :
    Agree core (P.pair p p') (P.pair q q') := by
  intro s hs
  obtain ⟨h1, h2⟩ := h s hs
  unfold P.pair
  rw [← h1]
  cases hp : p s with
  | none => exact ⟨rfl, nofun⟩
  | some x =>
    obtain ⟨a, r⟩ := x
    obtain ⟨h3, h4⟩ := h' r (h2 a r hp)
    dsimp only
    rw [← h3]
    cases hp' : p' r with
    | none => exact ⟨rfl, nofun⟩
    | some y => exact ⟨rfl, fun c t he => by cases he; exact h4 _ _ hp'⟩

theorem Agree.preceded {α β : Type} {p q : P α} {p' q' : P β} (h : Agree core p q) (h' : Agree core p' q') :
    Agree core (P.preceded p p') (P.preceded q q') := (h.pair h').map _

theorem Agree.terminated {α β : Type} {p q : P α} {p' q' : P β} (h : Agree core p q) (h' : Agree core p' q') :
    Agree core (P.terminated p p') (P.terminated q q') := (h.pair h').map _

theorem Agree.alt {α : Type} {p q p' q' : P α} (h : Agree core p q) (h' : Agree core p' q') : Agree core (P.alt p p') (P.alt q q') := by
  intro s hs
  obtain ⟨h1, h2⟩ := h s hs
  unfold P.alt
  rw [← h1]
  cases hp : p s with
  | none => exact h' s hs
  | some x => exact ⟨rfl, fun c t he => by cases he; exact h2 _ _ hp⟩

theorem Agree.opt {α : Type} {p q : P α} (h : Agree core p q) : Agree core (P.opt p) (P.opt q) := by
  intro s hs
  obtain ⟨h1, h2⟩ := h s hs
  unfold P.opt
  rw [← h1]
  cases hp : p s with
  | none => exact ⟨rfl, fun c t he => by cases he; exact hs⟩
  | some x => exact ⟨rfl, fun c t he => by cases he; exact h2 _ _ hp⟩

theorem Agree.verify {α : Type} {p q : P α} (h : Agree core p q) (f : α → Bool) : Agree core (P.verify p f) (P.verify q f) := by
  intro s hs
  obtain ⟨h1, h2⟩ := h s hs
  unfold P.verify
  rw [← h1]
  cases hp : p s with
  | none => exact ⟨rfl, nofun⟩
  | some x =>
    refine ⟨rfl, fun c t he => ?_⟩
    dsimp only at he
    split at he
    · cases he; exact h2 _ _ hp
    · cases he

theorem agree_oneOf (cs : List Char) : Agree core (oneOf cs) (oneOf cs) := by
  refine fun s hs => ⟨rfl, fun a r he => ?_⟩
  unfold oneOf at he
  split at he
  · cases he
  · split at he
    · cases he; exact (List.suffix_cons _ _).trans hs
    · cases he

theorem Agree.many0Loop {α : Type} {p q : P α} (h : Agree core p q) : ∀ k, Agree core (P.many0Loop p k) (P.many0Loop q k)
  | 0 => fun _ _ => ⟨rfl, nofun⟩
  | k + 1 => by
    intro s hs
    obtain ⟨h1, h2⟩ := h s hs
    unfold P.many0Loop
    rw [← h1]
    cases hp : p s with
    | none => exact ⟨rfl, fun c t he => by cases he; exact hs⟩
    | some x =>
      obtain ⟨a, r⟩ := x
      obtain ⟨h3, h4⟩ := Agree.many0Loop h k r (h2 a r hp)
      dsimp only
      rw [← h3]
      split
      · exact ⟨rfl, nofun⟩
      · cases hp' : P.many0Loop p k r with
        | none => exact ⟨rfl, nofun⟩
        | some y => exact ⟨rfl, fun c t he => by cases he; exact h4 _ _ hp'⟩

theorem Agree.many1 {α : Type} {p q : P α} (h : Agree core p q) : Agree core (P.many1 p) (P.many1 q) :=
  (h.pair fun s hs => h.many0Loop (s.length + 1) s hs).map _

theorem Agree.sepLoop {α β : Type} {p q : P α} {sep : P β} (hsep : Agree core sep sep) (h : Agree core p q) :
    ∀ k, Agree core (P.sepLoop sep p k) (P.sepLoop sep q k)
  | 0 => fun _ _ => ⟨rfl, nofun⟩
  | k + 1 => by
    intro s hs
    obtain ⟨_, h2⟩ := hsep s hs
    unfold P.sepLoop
    cases hp : sep s with
    | none => exact ⟨rfl, fun c t he => by cases he; exact hs⟩
    | some x =>
      obtain ⟨a, r⟩ := x
      obtain ⟨h3, h4⟩ := h r (h2 a r hp)
      dsimp only
      rw [← h3]
      split
      · exact ⟨rfl, nofun⟩
      · cases hp' : p r with
        | none => exact ⟨rfl, fun c t he => by cases he; exact hs⟩
        | some y =>
          obtain ⟨b, r'⟩ := y
          obtain ⟨h5, h6⟩ := Agree.sepLoop hsep h k r' (h4 b r' hp')
          dsimp only
          rw [← h5]
          cases hp'' : P.sepLoop sep p k r' with
          | none => exact ⟨rfl, nofun⟩
          | some z => exact ⟨rfl, fun c t he => by cases he; exact h6 _ _ hp''⟩

theorem Agree.separatedList1 {α β : Type} {p q : P α} {sep : P β} (hsep : Agree core sep sep) (h : Agree core p q) :
    Agree core (P.separatedList1 sep p) (P.separatedList1 sep q) := by
  intro s hs
  obtain ⟨h1, h2⟩ := h s hs
  unfold P.separatedList1
  rw [← h1]
  cases hp : p s with
  | none => exact ⟨rfl, nofun⟩
  | some x =>
    obtain ⟨a, r⟩ := x
    obtain ⟨h3, h4⟩ := Agree.sepLoop hsep h (r.length + 1) r (h2 a r hp)
    dsimp only
    rw [← h3]
    cases hp' : P.sepLoop sep p (r.length + 1) r with
    | none => exact ⟨rfl, nofun⟩
    | some y => exact ⟨rfl, fun c t he => by cases he; exact h4 _ _ hp'⟩

variable {cl cl' : Str → Nat}

theorem agree_oneCluster (h : ∀ s, s <:+ core → s ≠ [] → cl s = cl' s) : Agree core (oneCluster cl) (oneCluster cl') := by
  intro s hs
  unfold oneCluster
  cases s with
  | nil => exact ⟨rfl, nofun⟩
  | cons c s =>
    rw [h _ hs (List.cons_ne_nil _ _)]
    exact ⟨rfl, fun a r he => by cases he; exact (List.drop_suffix _ _).trans hs⟩

theorem agree_regexChar (h : ∀ s, s <:+ core → s ≠ [] → cl s = cl' s) : Agree core (regexChar cl) (regexChar cl') :=
  ((agree_oneOf _).map _).alt (((agree_oneOf _).map _).alt (((agree_oneOf _).preceded (agree_oneCluster h)).alt ((agree_oneCluster h).verify _)))

theorem agree_expression (h : ∀ s, s <:+ core → s ≠ [] → cl s = cl' s) : ∀ k, Agree core (expression cl k) (expression cl' k)
  | 0 => fun _ _ => ⟨rfl, nofun⟩
  | k + 1 => by
    have ih := agree_expression h k
    have h1 : Agree core (parExpr (expression cl k)) (parExpr (expression cl' k)) :=
      (((agree_oneOf _).preceded (ih.terminated (agree_oneOf _))).pair (agree_oneOf _).opt).map _
    have h2 : Agree core (combinatedChar cl) (combinatedChar cl') := (((agree_regexChar h).map _).pair (agree_oneOf _).opt).map _
    exact (Agree.separatedList1 (agree_oneOf _) ((h1.alt h2).many1.map _)).map _

/-- Two segmentations that agree at the positions of the trimmed text give the same tree. -/
theorem regex_congr {text : Str} (h : ∀ s, s <:+ trim text → s ≠ [] → cl s = cl' s) : regex cl text = regex cl' text := by
  unfold regex allConsuming fullRegex
  rw [(agree_expression h _ _ (List.suffix_refl _)).1]

end RegexParser
end Dandy
