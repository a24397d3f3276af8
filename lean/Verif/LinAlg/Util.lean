import Verif.Poly.Comp

/-!
# Model of `src/linalg/util.rs` (without the matrix iterator, see `Verif.LinAlg.MatIter`)

`usize` has 64 bits.
-/

namespace Verif

namespace Usize

/-- Result of a `usize` operation whose mathematical result is the natural `x`. -/
def norm (b : Build) (x : Nat) : Res Nat :=
  if x < 18446744073709551616 then .ok x
  else match b with
    | .debug => .panic .overflowUsize
    | .release => .ok (x % 18446744073709551616)

/-- `x + y` on `usize`. -/
def add (b : Build) (x y : Nat) : Res Nat := norm b (x + y)

/-- `x * y` on `usize`. -/
def mul (b : Build) (x y : Nat) : Res Nat := norm b (x * y)

/-- `x - y` on `usize`. -/
def sub (b : Build) (x y : Nat) : Res Nat :=
  if y ≤ x then .ok (x - y)
  else match b with
    | .debug => .panic .overflowUsize
    | .release => .ok (x + 18446744073709551616 - y)

/-- `x.pow(e)` on `usize`.  The library's square-and-multiply overflows exactly when `x ^ e` does. -/
def pow (b : Build) (x e : Nat) : Res Nat := norm b (x ^ e)

end Usize

namespace LinAlg

/-- util.rs:11-13 `get_box_iter` (the iterator as the list of its items). -/
def boxIter (rows cols : Nat) : List (Nat × Nat) :=
  (List.range rows).flatMap fun r => (List.range cols).map fun c => (r, c)

/-- util.rs:15-24 `get_max_index`: `unwrap` panics on an empty iterator and on an undefined
comparison. -/
def getMaxIndex {T : Type} (slice : List T) (le : T → T → Res (Option Ordering)) : Res Nat := do
  match ← maxBy (fun (x y : Nat × T) => do
      match ← le x.2 y.2 with
      | some o => pure o
      | none => .panic .unwrapNone) (slice.zipIdx.map fun (x, i) => (i, x)) with
  | some (i, _) => pure i
  | none => .panic .unwrapNone

/-- util.rs:47-55 `BaseSeqIterator::next`: the new state and the item. -/
def baseSeqNext (base n : Nat) : Res (Nat × Option Nat) :=
  if base = 0 then .panic .divByZero
  else
    let n := n / base
    .ok (n, if n = 0 then none else some (n % base))

/-- One call of `next` by a consumer that collects the items; it stops at the first `None`. -/
def numToSeqStep (base : Nat) : Nat × List Nat → Res (Nat × List Nat ⊕ List Nat)
  | (n, acc) => do
    let (n, item) ← baseSeqNext base n
    match item with
    | some d => pure (.inl (n, acc ++ [d]))
    | none => pure (.inr acc)

/-- util.rs:26-42 `num_to_seq`, run to the end and collected. -/
def numToSeq (b : Build) (n base : Nat) : Res (List Nat) := do
  let n ← Usize.mul b n base
  Res.loop (numToSeqStep base) (n, [])

end LinAlg
end Verif
