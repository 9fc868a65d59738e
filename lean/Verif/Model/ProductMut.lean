import Verif.Model.Nfa
/-!
# The product constructions with a combinator that has effects

`combinator` is an `impl FnMut` (dandy/src/dfa/mod.rs:455, dandy/src/nfa/mod.rs:478), so it may carry a state from one call to the next.
`Dfa.product` and `Nfa.product` take a pure function; here the state (of type `τ`) is passed through the calls, in the order in which the
code makes them.
-/

namespace Dandy

/-- The `while let Some(..) = ..pop()` loop of the product constructions (dandy/src/dfa/mod.rs:473-492, dandy/src/nfa/mod.rs:509-600): as
`explore`, but for every popped item the combinator is called after its successors have been pushed, and the answer is recorded.
`none`: a panic in the call, or out of fuel (first argument). -/
def exploreMut {τ σ κ : Type} [DecidableEq κ] (key : σ → κ) (succ : σ → List σ) (call : τ → σ → Option (τ × Bool)) :
    Nat → τ → List σ → List σ → List (σ × Bool) → Option (τ × List (σ × Bool) × List σ)
  | 0, _, _, _, _ => none
  | _ + 1, t, [], seen, out => some (t, out, seen)
  | k + 1, t, s :: stack, seen, out => do
    let p := pushNew key (succ s) (stack, seen)
    let (t, b) ← call t s
    exploreMut key succ call k t p.1 p.2 (out ++ [(s, b)])

/-- dandy/src/dfa/mod.rs:452-552 `product_construction` with the state of the combinator before and after.
Outer `Option`: `none` is a panic or non-termination. -/
def Dfa.productMut {τ : Type} (ord : List (Nat × Nat) → List (Nat × Nat)) (d o : Dfa)
    (combinator : τ → DfaState → DfaState → τ × Bool) (t : τ) : Option (τ × Option Dfa) :=
  if !alphabetEqual d.alphabet o.alphabet then some (t, none)
  else do
    let init := (DfaEval.new d, DfaEval.new o)
    let q := (d.initialState, o.initialState)
    let (t, out, seen) ← exploreMut Dfa.pairKey (Dfa.pairSucc d.alphabet)
      (fun t p => do return combinator t (← p.1.currentState) (← p.2.currentState)) (Dfa.pairFuel d o) t [init] [init] []
    let stateData := out.map (fun x => (Dfa.pairKey x.1, x.2, (Dfa.pairSucc d.alphabet x.1).map Dfa.pairKey))
    -- lines 495-517
    let names := genNames (fun k : Nat × Nat => Dfa.pairName (d.state k.1).name (o.state k.2).name)
      (ord (seen.map Dfa.pairKey)) stateData.length
    -- lines 519-526
    let idx := fun k => revGet (stateData.map (·.1)) k
    let initialState ← idx q
    -- lines 528-546
    let states ← stateData.mapM (fun sd => do
      let name ← names.lookup sd.1
      let tr ← sd.2.2.mapM idx
      pure ({ name := name, initial := sd.1 == q, accepting := sd.2.1, transitions := tr } : DfaState))
    return (t, some { alphabet := d.alphabet, states := states, initialState := initialState })

/-- dandy/src/nfa/mod.rs:475-676 `product_construction` with the state of the combinator before and after. -/
def Nfa.productMut {τ : Type} (ord : List Nfa.OPair → List Nfa.OPair) (n o : Nfa)
    (combinator : τ → Option NfaState → Option NfaState → τ × Bool) (t : τ) : Option (τ × Option Nfa) :=
  if !alphabetEqual n.alphabet o.alphabet then some (t, none)
  else do
    let translation ← Nfa.alphabetTranslation n.alphabet o.alphabet
    let q : Nfa.OPair := (some n.initialState, some o.initialState)
    let succ := fun p => (Nfa.pairRow n o translation p).flatten ++ Nfa.pairEps n o p
    let (t, out, seen) ← exploreMut id succ (fun t p => some (combinator t (p.1.map n.state) (p.2.map o.state)))
      ((n.states.length + 1) * (o.states.length + 1) + 1) t [q] [q] []
    -- 591-599
    let stateData := out.map (fun x => (x.1, x.2, Nfa.pairRow n o translation x.1, Nfa.pairEps n o x.1))
    -- 602-626
    let names := genNames (fun p : Nfa.OPair => Dfa.pairName
        ((p.1.map (fun s => (n.state s).name)).getD Nfa.noneName) ((p.2.map (fun s => (o.state s).name)).getD Nfa.noneName))
      (ord seen) stateData.length
    -- 628-635
    let idx := fun p => revGet (stateData.map (·.1)) p
    let initialState ← idx q
    -- 637-670
    let states ← stateData.mapM (fun sd => do
      let name ← names.lookup sd.1
      let tr ← sd.2.2.1.mapM (fun l => l.mapM idx)
      let eps ← sd.2.2.2.mapM idx
      pure ({ name := name, initial := sd.1 == q, accepting := sd.2.1, transitions := tr,
              epsilonTransitions := eps } : NfaState))
    return (t, some { alphabet := n.alphabet, states := states, initialState := initialState })

end Dandy
