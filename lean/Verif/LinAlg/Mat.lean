import Verif.LinAlg.Util
import Verif.Num.Field

/-!
# Model of `src/linalg/mat.rs`: matrices

`Mat` is a vector of entries in row-major order with its dimensions; nothing ties the length of the
vector to the dimensions (`Mat::new` does not check).  Index arithmetic is on `usize`.
`for` loops over `0..n` are folds over `List.range n`; a method taking `&mut self` returns the new
matrix.  A vector can have any length (memory is not modelled).
-/

namespace Verif

/-- mat.rs:9-14 `Mat`. -/
structure Mat (F : Type) where
  entries : List F
  rows : Nat
  cols : Nat
  deriving DecidableEq, Repr

variable {F : Type} [RField F]

namespace Mat
open LinAlg

/-- mat.rs:17-23 `new`. -/
def new (rows cols : Nat) (entries : List F) : Mat F := ⟨entries, rows, cols⟩

/-- The index computation `r * self.cols + c` (mat.rs:26, 200, 208). -/
def offset (M : Mat F) (r c : Nat) : Res Nat := do
  let p ← Usize.mul (RField.build F) r M.cols
  Usize.add (RField.build F) p c

/-- mat.rs:199-201 `get_unchecked`; also `Index::index`, 311-317 (`self[(r, c)]`). -/
def get (M : Mat F) (r c : Nat) : Res F := do
  let i ← M.offset r c
  match M.entries[i]? with
  | some x => pure x
  | none => .panic .indexOutOfBounds

/-- mat.rs:207-209 `get_mut_unchecked` and 319-323 `IndexMut::index_mut`, followed by an
assignment of `x` through the reference. -/
def set (M : Mat F) (r c : Nat) (x : F) : Res (Mat F) := do
  let i ← M.offset r c
  if i < M.entries.length then pure { M with entries := M.entries.set i x }
  else .panic .indexOutOfBounds

/-- `slice::swap`. -/
def swapList {α : Type} (l : List α) (i j : Nat) : Res (List α) :=
  match l[i]?, l[j]? with
  | some x, some y => .ok ((l.set i y).set j x)
  | _, _ => .panic .indexOutOfBounds

/-- mat.rs:25-27 `swap`. -/
def swap (M : Mat F) (p q : Nat × Nat) : Res (Mat F) := do
  let i ← M.offset p.1 p.2
  let j ← M.offset q.1 q.2
  let entries ← swapList M.entries i j
  pure { M with entries }

/-! ### Constructors -/

/-- mat.rs:32-40 `identity`. -/
def identity (n : Nat) : Mat F :=
  new n n ((boxIter n n).map fun (r, c) => if r = c then RField.one else RField.zero)

/-- `vs[i]` on a slice. -/
def nth {α : Type} (vs : List α) (i : Nat) : Res α :=
  match vs[i]? with
  | some v => .ok v
  | none => .panic .indexOutOfBounds

/-- mat.rs:42-50 `from_col_vectors`. -/
def fromColVectors (vs : List (Mat F)) : Res (Mat F) := do
  let v0 ← nth vs 0
  let entries ← (boxIter v0.rows vs.length).mapM fun (r, c) => do
    let v ← nth vs c
    v.get r 0
  pure (new v0.rows vs.length entries)

/-- mat.rs:52-60 `from_row_vectors`. -/
def fromRowVectors (vs : List (Mat F)) : Res (Mat F) := do
  let v0 ← nth vs 0
  let entries ← (boxIter vs.length v0.rows).mapM fun (r, c) => do
    let v ← nth vs r
    v.get c 0
  pure (new vs.length v0.rows entries)

/-- mat.rs:63-71 `e`. -/
def e (k n : Nat) : Mat F :=
  new n 1 ((List.range n).map fun r => if r = k then RField.one else RField.zero)

/-- mat.rs:74-80 `zero`. -/
def zero (rows cols : Nat) : Mat F := new rows cols ((boxIter rows cols).map fun _ => RField.zero)

/-- mat.rs:83-99 `scale_mat`. -/
def scaleMat (rows i : Nat) (scale : F) : Mat F :=
  new rows rows ((boxIter rows rows).map fun (r, c) =>
    if r = c ∧ r = i then scale else if r = c then RField.one else RField.zero)

/-- mat.rs:103-120 `permutation`. -/
def permutation (rows source target : Nat) : Mat F :=
  new rows rows ((boxIter rows rows).map fun (r, c) =>
    if (r = source ∧ c = target) ∨ (c = source ∧ r = target) ∨ (r = c ∧ r ≠ source ∧ c ≠ target)
    then RField.one else RField.zero)

/-- mat.rs:127-136 `permutation_from_vec`.  `permutation[r]` cannot be out of bounds since `r < n`. -/
def permutationFromVec (permutation : List Nat) : Mat F :=
  let n := permutation.length
  new n n ((boxIter n n).map fun (r, c) =>
    if permutation[r]? = some c then RField.one else RField.zero)

/-- mat.rs:140-156 `replacement`. -/
def replacement (rows source target : Nat) (scalar : F) : Mat F :=
  new rows rows ((boxIter rows rows).map fun (r, c) =>
    if c = source ∧ r = target then scalar else if r = c then RField.one else RField.zero)

/-- mat.rs:159-168 `transpose`. -/
def transpose (M : Mat F) : Res (Mat F) := do
  let entries ← (boxIter M.cols M.rows).mapM fun (c, r) => M.get r c
  pure (new M.cols M.rows entries)

/-! ### Mutators -/

/-- mat.rs:172-176 `scale_row`. -/
def scaleRow (M : Mat F) (i : Nat) (scalar : F) : Res (Mat F) :=
  (List.range M.cols).foldlM (fun M c => do
    let x ← M.get i c
    let y ← RField.mul scalar x
    M.set i c y) M

/-- mat.rs:178-184 `permute_rows`. -/
def permuteRows (M : Mat F) (source target : Nat) : Res (Mat F) :=
  (List.range M.cols).foldlM (fun M c => do
    let temp ← M.get source c
    let x ← M.get target c
    let M ← M.set source c x
    M.set target c temp) M

/-- mat.rs:186-190 `replace_row`. -/
def replaceRow (M : Mat F) (source target : Nat) (scalar : F) : Res (Mat F) :=
  (List.range M.cols).foldlM (fun M c => do
    let x ← M.get target c
    let y ← M.get source c
    let z ← RField.mul y scalar
    let w ← RField.add x z
    M.set target c w) M

/-- mat.rs:193-195 `scale`; also `MulAssign<F>`, 396-400. -/
def scale (M : Mat F) (scalar : F) : Res (Mat F) := do
  let entries ← M.entries.mapM fun x => RField.mul x scalar
  pure { M with entries }

/-! ### Getters -/

/-- mat.rs:218-220 `get_row_iter` (the iterator as the list of its items): the slice
`entries[r * cols..(r + 1) * cols]`. -/
def getRowIter (M : Mat F) (r : Nat) : Res (List F) := do
  let i ← Usize.mul (RField.build F) r M.cols
  let r1 ← Usize.add (RField.build F) r 1
  let j ← Usize.mul (RField.build F) r1 M.cols
  if i ≤ j ∧ j ≤ M.entries.length then pure ((M.entries.drop i).take (j - i))
  else .panic .indexOutOfBounds

/-- mat.rs:222-224 `get_row_iter_mut`: the positions in `entries` of the references it yields. -/
def getRowIterMut (M : Mat F) (r : Nat) : Res (List Nat) := do
  let i ← Usize.mul (RField.build F) r M.cols
  let r1 ← Usize.add (RField.build F) r 1
  let j ← Usize.mul (RField.build F) r1 M.cols
  if i ≤ j ∧ j ≤ M.entries.length then pure (List.range' i (j - i))
  else .panic .indexOutOfBounds

/-- mat.rs:299-309 `From<I: Iterator>`: a column vector. -/
def fromIter (l : List F) : Mat F := ⟨l, l.length, 1⟩

/-- mat.rs:227-229 `get_row`. -/
def getRow (M : Mat F) (r : Nat) : Res (Mat F) := do
  let l ← M.getRowIter r
  pure (fromIter l)

/-- mat.rs:231-233 `get_col_iter`, run to the end. -/
def getColIter (M : Mat F) (c : Nat) : Res (List F) :=
  (List.range M.rows).mapM fun r => M.get r c

/-- mat.rs:235-242 `get_col_iter_mut`, run to the end: the positions in `entries` of the references
it yields.  `chunks_exact_mut(k)` panics for `k = 0` and cuts the vector into chunks of length `k`,
dropping an incomplete last one; `row[c]` is the `c`-th cell of a chunk. -/
def getColIterMut (M : Mat F) (c : Nat) : Res (List Nat) :=
  if M.rows = 0 then .panic .zeroChunk
  else (List.range (M.entries.length / M.rows)).mapM fun k =>
    if c < M.rows then .ok (k * M.rows + c) else .panic .indexOutOfBounds

/-- mat.rs:244-246 `get_col`. -/
def getCol (M : Mat F) (c : Nat) : Res (Mat F) := do
  let l ← M.getColIter c
  pure (fromIter l)

/-- mat.rs:248-250 `frobenius_norm`. -/
def frobeniusNorm (M : Mat F) : Res F :=
  M.entries.foldlM (fun accum x => do
    let y ← RField.mul x x
    RField.add accum y) RField.zero

/-- mat.rs:254-259 `dot`. -/
def dot (M other : Mat F) : Res F :=
  (M.entries.zip other.entries).foldlM (fun accum (x, y) => do
    let z ← RField.mul x y
    RField.add accum z) RField.zero

/-- mat.rs:263-265 `index_iter`. -/
def indexIter (M : Mat F) : List (Nat × Nat) := boxIter M.rows M.cols

/-- mat.rs:274-284 `is_upper_triangular`: the nested loops return at the first nonzero entry. -/
def isUpperTriangular (M : Mat F) : Res Bool :=
  ((List.range M.rows).flatMap fun r => (List.range (min r M.cols)).map fun c => (r, c)).allM
    fun (r, c) => do
      let x ← M.get r c
      pure (RField.beq x RField.zero)

/-- mat.rs:286-296 `is_lower_triangular`.  `min(r, cols) + 1` cannot overflow since `r < rows`. -/
def isLowerTriangular (M : Mat F) : Res Bool :=
  ((List.range M.rows).flatMap fun r =>
    (List.range' (min r M.cols + 1) (M.cols - (min r M.cols + 1))).map fun c => (r, c)).allM
    fun (r, c) => do
      let x ← M.get r c
      pure (RField.beq x RField.zero)

/-! ### Operators -/

/-- mat.rs:340-358 `Add`. -/
def add (M other : Mat F) : Res (Mat F) :=
  if !(M.rows == other.rows && M.cols == other.cols) then
    .panic (.explicit "tried to add matrix with incompatible dimensions.")
  else do
    let entries ← (M.entries.zip other.entries).mapM fun (x, y) => RField.add x y
    pure (new M.rows M.cols entries)

/-- mat.rs:361-372 `Mul<F>`. -/
def smul (M : Mat F) (scalar : F) : Res (Mat F) := do
  let entries ← M.entries.mapM fun x => RField.mul x scalar
  pure (new M.rows M.cols entries)

/-- mat.rs:374-394 `Mul`.  An entry of the column of `other` is read when the fold reaches it. -/
def mul (M other : Mat F) : Res (Mat F) :=
  if M.cols ≠ other.rows then
    .panic (.explicit "tried to multiply matrices with incompatible dimensions.")
  else do
    let entries ← (boxIter M.rows other.cols).mapM fun (r, c) => do
      let row ← M.getRowIter r
      (row.zip (List.range other.rows)).foldlM (fun accum (x, k) => do
        let y ← other.get k c
        let z ← RField.mul x y
        RField.add accum z) RField.zero
    pure (new M.rows other.cols entries)

/-- mat.rs:402-408 `EpsilonEquality for Mat<F>`. -/
def epsilonEquals [EpsilonEquality F] (M other : Mat F) : Res Bool := do
  let s ← RField.sub (RField.zero : F) RField.one
  let o ← other.smul s
  let d ← M.add o
  let x ← d.frobeniusNorm
  EpsilonEquality.epsilonEquals x RField.zero

end Mat
end Verif
