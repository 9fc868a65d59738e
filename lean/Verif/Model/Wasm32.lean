import Verif.Model.Wasm
/-!
# Model of the keys of dandy-wasm/src/lib.rs on a machine of 32 bits

In a browser `usize` has 32 bits. `RangeFrom::next` computes the successor of the number it returns: in a release build (dandy-wasm/build.sh,
`wasm-pack build` without options) it wraps around, with overflow checks it panics.
-/

namespace Dandy
namespace Wasm

/-- One more than the greatest `usize`. For dandy-wasm/src/lib.rs:37. -/
def keyLimit : Nat := 2 ^ 32

/-- One call of an exported function (dandy-wasm/src/lib.rs:51-211), where `gen_key` (dandy-wasm/src/lib.rs:221-223) adds with 32 bits. A call
makes at most one key, so it is enough to look at the counter after it. `checks`: overflow checks are on. `none`: panic. -/
def call32 (checks : Bool) (env : Env) (s : Store) (c : Call) : Option (Store × Result) := do
  let (s, r) ← call env s c
  if s.nextKey < keyLimit then return (s, r)
  else if checks then none
  else return ({ s with nextKey := s.nextKey % keyLimit }, r)

/-- A page making the calls one after the other, like `session`. Calls of
dandy-wasm/src/lib.rs:52-220. -/
def session32 (checks : Bool) (env : Env) : List Call → Option (Store × List (Call × Result))
  | [] => some (.init, [])
  | c :: cs => do
    let (s, h) ← session32 checks env cs
    let (s, r) ← call32 checks env s c
    return (s, (c, r) :: h)

end Wasm
end Dandy
