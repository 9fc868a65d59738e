import Verif.Props.NfaEvaluator
/-! # What a user sees of an evaluator -/

namespace Dandy

/-- Whether a call on a DFA evaluator returned something. -/
def StepCall.okDfa (ev : DfaEval) : StepCall → Bool
  | .step e => (ev.step e).2.isSome
  | .stepMultiple es => (ev.stepMultiple es).2.isSome

/-- Whether a call on an NFA evaluator returned something. -/
def StepCall.okNfa (ev : NfaEval) : StepCall → Bool
  | .step e => (ev.step e).2.isSome
  | .stepMultiple es => (ev.stepMultiple es).2.isSome

/-- What is seen during a number of calls: for each, whether it returned something, and whether the evaluator accepts afterwards. -/
def seenDfa : DfaEval → List StepCall → List (Bool × Bool)
  | _, [] => []
  | ev, c :: cs => (c.okDfa ev, (c.runDfa ev).isAccepting) :: seenDfa (c.runDfa ev) cs

/-- The same for an NFA. -/
def seenNfa : NfaEval → List StepCall → List (Bool × Bool)
  | _, [] => []
  | ev, c :: cs => (c.okNfa ev, (c.runNfa ev).isAccepting) :: seenNfa (c.runNfa ev) cs

end Dandy
