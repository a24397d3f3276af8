import Verif.LinAlg.Mat

/-!
# Model of `MatIterator`, `src/linalg/util.rs:58-93`
-/

namespace Verif.LinAlg

variable {F : Type} [RField F]

/-- util.rs:77-92 `MatIterator::next` in state `num`: `none` at the end, otherwise the item; the
new state is `num + 1` (which cannot overflow, being at most the power computed before).  The
conversion `as u32` keeps the low 32 bits. -/
def matIterNext (n m : Nat) (values : List F) (num : Nat) : Res (Option (Mat F)) := do
  let nm ← Usize.mul (RField.build F) n m
  let total ← Usize.pow (RField.build F) values.length (nm % 4294967296)
  if num ≥ total then pure none
  else do
    let digits ← numToSeq (RField.build F) num values.length
    let entries ← digits.mapM fun i => Mat.nth values i
    let pad ← (List.range' entries.length (nm - entries.length)).mapM fun _ => Mat.nth values 0
    pure (some (Mat.new n m (entries ++ pad)))

/-- One call of `next` by a consumer that collects the items; it stops at the first `None`. -/
def matIteratorStep (n m : Nat) (values : List F) :
    Nat × List (Mat F) → Res (Nat × List (Mat F) ⊕ List (Mat F))
  | (num, acc) => do
    match ← matIterNext n m values num with
    | some M => pure (.inl (num + 1, acc ++ [M]))
    | none => pure (.inr acc)

/-- util.rs:58-65 `mat_iterator`, run to the end and collected. -/
def matIterator (n m : Nat) (values : List F) : Res (List (Mat F)) :=
  Res.loop (matIteratorStep n m values) (0, [])

end Verif.LinAlg
