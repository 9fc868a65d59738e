import Verif.Model.RegexParser
/-!
# The recursion of the parser of regular expressions and of the functions on its trees (dandy/src/parser/regex.rs, dandy/src/regex/mod.rs)

The only recursion of the parser is `expression` → `alternation` → `sequence` → `par_expr` → `expression`, so the stack it needs is determined by the
greatest number of calls of `expression` that are active at the same time. This file counts them, whether the parser succeeds or fails.
-/

namespace Dandy

/-- A parser (dandy/src/parser/regex.rs:8) together with the greatest number of calls of `expression` (dandy/src/parser/regex.rs:17-19) active at once
while it runs on an input. -/
structure PD (α : Type) where
  run : P α
  depth : Str → Nat

namespace PD
variable {α β γ : Type}

/-- What is needed after a successful parser (used for all combinators of dandy/src/parser/regex.rs:2-8). -/
def after (x : Option (α × Str)) (f : α → Str → Nat) : Nat :=
  match x with
  | none => 0
  | some (a, r) => f a r

/-- A parser that never calls `expression` (dandy/src/parser/regex.rs:52-102). -/
def leaf (p : P α) : PD α := ⟨p, fun _ => 0⟩

/-- `nom::combinator::map` (dandy/src/parser/regex.rs:14,22,29,46). -/
def map (f : α → β) (p : PD α) : PD β := ⟨P.map f p.run, p.depth⟩

/-- `Parser::and` and the steps of `delimited` (dandy/src/parser/regex.rs:47): the first call has returned when the second is made. -/
def pair (p : PD α) (q : PD β) : PD (α × β) := ⟨P.pair p.run q.run, fun s => max (p.depth s) (after (p.run s) (fun _ r => q.depth r))⟩

/-- `nom::sequence::preceded`, part of `delimited` (dandy/src/parser/regex.rs:47). -/
def preceded (p : PD α) (q : PD β) : PD β := map (·.2) (pair p q)

/-- `nom::sequence::terminated`, part of `delimited` (dandy/src/parser/regex.rs:47). -/
def terminated (p : PD α) (q : PD β) : PD α := map (·.1) (pair p q)

/-- `nom::sequence::delimited` (dandy/src/parser/regex.rs:47). -/
def delimited (p : PD α) (q : PD β) (r : PD γ) : PD β := preceded p (terminated q r)

/-- `nom::branch::alt` (dandy/src/parser/regex.rs:30): the second alternative only if the first fails. -/
def alt (p q : PD α) : PD α := ⟨P.alt p.run q.run, fun s => max (p.depth s) (if (p.run s).isNone then q.depth s else 0)⟩

/-- The rounds of `P.many0Loop` (dandy/src/parser/regex.rs:30). -/
def many0Depth (p : PD α) : Nat → Str → Nat
  | 0, _ => 0
  | fuel + 1, s => max (p.depth s) (after (p.run s) (fun _ r => if r.length == s.length then 0 else many0Depth p fuel r))

/-- `nom::multi::many0`, the rounds of `many1` after the first (dandy/src/parser/regex.rs:30). -/
def many0 (p : PD α) : PD (List α) := ⟨P.many0 p.run, fun s => many0Depth p (s.length + 1) s⟩

/-- `nom::multi::many1` (dandy/src/parser/regex.rs:30). -/
def many1 (p : PD α) : PD (List α) := map (fun x => x.1 :: x.2) (pair p (many0 p))

/-- The rounds of `P.sepLoop` (dandy/src/parser/regex.rs:23). -/
def sepDepth (sep : PD β) (p : PD α) : Nat → Str → Nat
  | 0, _ => 0
  | fuel + 1, s => max (sep.depth s) (after (sep.run s) (fun _ r =>
      if r.length == s.length then 0 else max (p.depth r) (after (p.run r) (fun _ r' => sepDepth sep p fuel r'))))

/-- `nom::multi::separated_list1` (dandy/src/parser/regex.rs:23). -/
def separatedList1 (sep : PD β) (p : PD α) : PD (List α) :=
  ⟨P.separatedList1 sep.run p.run, fun s => max (p.depth s) (after (p.run s) (fun _ r => sepDepth sep p (r.length + 1) r))⟩

end PD

namespace RegexD
open PD
open RegexParser (applyKleene wrapMultiple)

/-- dandy/src/parser/regex.rs:45-50 `par_expr`, for a given parser of expressions. -/
def parExpr (expression : PD RegexTree) : PD RegexTree :=
  map applyKleene (pair (delimited (leaf (P.oneOf ['('])) expression (leaf (P.oneOf [')']))) (leaf (P.opt (P.oneOf ['+', '*']))))

/-- dandy/src/parser/regex.rs:28-33 `sequence`. -/
def sequence (cl : Str → Nat) (expression : PD RegexTree) : PD RegexTree :=
  map (wrapMultiple .seq) (many1 (alt (parExpr expression) (leaf (RegexParser.combinatedChar cl))))

/-- dandy/src/parser/regex.rs:21-26 `alternation`. -/
def alternation (cl : Str → Nat) (expression : PD RegexTree) : PD RegexTree :=
  map (wrapMultiple .alt) (separatedList1 (leaf (P.oneOf ['|'])) (sequence cl expression))

/-- dandy/src/parser/regex.rs:17-19 `expression`: this call, and those made inside it. The first argument bounds the nesting as in
`RegexParser.expression`; `C98_enough` shows that the bound used below is never reached. -/
def expression (cl : Str → Nat) : Nat → PD RegexTree
  | 0 => ⟨fun _ => none, fun _ => 0⟩
  | k + 1 => ⟨(alternation cl (expression cl k)).run, fun s => (alternation cl (expression cl k)).depth s + 1⟩

/-- The calls of `expression` active at once in `full_regex` (dandy/src/parser/regex.rs:13-15), hence in `parser::regex`
(dandy/src/parser/mod.rs:119-123). -/
def calls (cl : Str → Nat) (text : Str) : Nat := (expression cl ((trim text).length + 1)).depth (trim text)

end RegexD

namespace RegexTree

mutual
/-- The calls active at once of the functions that walk a tree by calling themselves on its parts: `Regex::tree_to_nfa`
(dandy/src/regex/mod.rs:215-309), `Regex::build_string` (dandy/src/regex/mod.rs:164-209), and the derived `clone` and the drop of a tree
(dandy/src/regex/mod.rs:64-70). -/
def calls : RegexTree → Nat
  | .seq ts => callsMax ts + 1
  | .alt ts => callsMax ts + 1
  | .rep t => calls t + 1
  | .chr _ => 1
/-- The greatest of the parts, which are walked one after the other (dandy/src/regex/mod.rs:167-169, 174-180, 238-260, 266-272). -/
def callsMax : List RegexTree → Nat
  | [] => 0
  | t :: ts => max (calls t) (callsMax ts)
end

end RegexTree
end Dandy
