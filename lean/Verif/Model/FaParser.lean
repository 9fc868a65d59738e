import Verif.Model.Nom
import Verif.Model.Validate
/-!
# Model of dandy/src/parser/fa.rs and of `parser::dfa`, `parser::nfa` (dandy/src/parser/mod.rs)

`full_nfa`/`full_dfa`, `nfa_head`/`dfa_head` and `nfa_line`/`dfa_line` have the same text except for the parser of one
entry; the common text is modelled once (`fullFa`, `faHead`, `faLine`).
-/

namespace Dandy
namespace Fa
open P

/-- The words that are no names (dandy/src/parser/fa.rs:119,134). -/
def reserved : List Str := [['ε'], ['e', 'p', 's'], ['→'], ['-', '>'], ['*']]

/-- The characters ending a name (dandy/src/parser/fa.rs:118,133). -/
def endsName (c : Char) : Bool := isWhitespace c || ['#', '{', '}'].contains c

/-- dandy/src/parser/fa.rs:112-114 `eps`. -/
def eps : P Unit := map (fun _ => ()) (alt (tag ['ε']) (tag ['e', 'p', 's']))

/-- dandy/src/parser/fa.rs:116-121 `alphabet_elem`. -/
def alphabetElem : P Str := verify (takeTill1 endsName) (fun elem => !reserved.contains elem)

/-- dandy/src/parser/fa.rs:131-136 `state_name`. -/
def stateName : P Str := verify (takeTill1 endsName) (fun elem => !reserved.contains elem)

/-- dandy/src/parser/fa.rs:123-129 `state_set`. -/
def stateSet : P (List Str) :=
  delimited (tag ['{']) (delimited space0 (separatedList0 space1 stateName) space0) (tag ['}'])

/-- dandy/src/parser/fa.rs:138-140 `accepting`. -/
def accepting : P Unit := value () (tag ['*'])

/-- dandy/src/parser/fa.rs:142-144 `arrow`. -/
def arrow : P Unit := map (fun _ => ()) (alt (tag ['-', '>']) (tag ['→']))

/-- dandy/src/parser/fa.rs:163-165 `comment`. -/
def comment : P Unit := value () (pair (tag ['#']) notLineEnding)

/-- dandy/src/parser/fa.rs:159-161 `space_comment`. -/
def spaceComment : P Unit := value () (pair space0 (opt comment))

/-- dandy/src/parser/fa.rs:146-157 `space_comment_line`. -/
def spaceCommentLine : P Unit :=
  value () (verify (recognize (terminated spaceComment (alt lineEnding eof))) (fun consumed => !consumed.isEmpty))

/-- dandy/src/parser/fa.rs:27-39 `nfa_head` and 81-87 `dfa_head`: `item` is the parser of one entry. -/
def faHead {α : Type} (item : P α) : P (List α) := delimited space0 (separatedList1 space1 item) spaceComment

/-- dandy/src/parser/fa.rs:33-34, the entries of `nfa_head`. -/
def nfaHeadItem : P NfaAlphabetEntry := alt (map NfaAlphabetEntry.element alphabetElem) (value NfaAlphabetEntry.eps eps)

/-- dandy/src/parser/fa.rs:42-54 (`nfa_line`) and 90-102 (`dfa_line`): initial, accepting, name, transitions. -/
def faLine {τ : Type} (entry : P τ) : P ((Option Unit × Option Unit) × (Str × List τ)) :=
  delimited space0
    (pair (pair (opt (terminated arrow space1)) (opt (terminated accepting space1)))
      (pair (terminated stateName space1) (separatedList1 space1 entry)))
    spaceComment

/-- dandy/src/parser/fa.rs:89-110 `dfa_line`. -/
def dfaLine : P ParsedDfaState :=
  map (fun x => ⟨x.2.1, x.1.1.isSome, x.1.2.isSome, x.2.2⟩) (faLine stateName)

/-- dandy/src/parser/fa.rs:41-62 `nfa_line`. -/
def nfaLine : P ParsedNfaState :=
  map (fun x => ⟨x.2.1, x.1.1.isSome, x.1.2.isSome, x.2.2⟩) (faLine stateSet)

/-- dandy/src/parser/fa.rs:10-25 `full_nfa` and 64-79 `full_dfa`, without the final `map`. -/
def fullFa {α σ : Type} (head : P (List α)) (line : P σ) : P (List α × List σ) :=
  delimited (many0 spaceCommentLine)
    (pair (terminated head lineEnding)
      (preceded (many0 spaceCommentLine) (separatedList1 (many1 spaceCommentLine) line)))
    (many0 spaceCommentLine)

/-- dandy/src/parser/fa.rs:64-79 `full_dfa`. -/
def fullDfa : P ParsedDfa := map (fun x => ⟨x.1, x.2⟩) (fullFa (faHead alphabetElem) dfaLine)

/-- dandy/src/parser/fa.rs:10-25 `full_nfa`. -/
def fullNfa : P ParsedNfa := map (fun x => ⟨x.1, x.2⟩) (fullFa (faHead nfaHeadItem) nfaLine)

/-- dandy/src/parser/mod.rs:102-106 `parser::dfa`. -/
def dfa : Str → Option ParsedDfa := allConsuming fullDfa

/-- dandy/src/parser/mod.rs:111-115 `parser::nfa`. -/
def nfa : Str → Option ParsedNfa := allConsuming fullNfa

end Fa
end Dandy
