import Verif.LinAlg.Mat

/-!
# Model of `src/linalg/algorithm.rs`: elimination

In the `for` loops the row counter `r` stays below `rows()`, so `r + 1` and `r += 1` cannot overflow
and are plain additions.
-/

namespace Verif

variable {F : Type} [RField F]

namespace Mat
open LinAlg

/-- algorithm.rs:16-26 `get_stable_column_index_under_row`.  Simplification: the entries of the
column are read before the first comparison instead of in turn; on a well-formed matrix reading does
not panic, so the order cannot be observed. -/
def getStable [EpsilonEquality F] [StabilityCmp F] (M : Mat F) (c r : Nat) :
    Res (Option (Nat × F)) := do
  let col ← M.getColIter c
  let k ← getMaxIndex (col.drop r) StabilityCmp.stabilityCmp
  let i := k + r
  let scalar ← M.get i c
  if ← EpsilonEquality.epsilonEquals scalar RField.zero then pure none
  else pure (some (i, scalar))

/-- `Iterator::position` with a predicate that can panic. -/
def position {α : Type} (p : α → Res Bool) : List α → Res (Option Nat)
  | [] => .ok none
  | x :: xs => do
    if ← p x then pure (some 0)
    else do
      let i ← position p xs
      pure (i.map (· + 1))

/-- algorithm.rs:32-37 `index_of_first_nonzero_entry`. -/
def firstNonzero [EpsilonEquality F] (M : Mat F) (r : Nat) : Res (Option Nat) := do
  let row ← M.getRow r
  position (fun x => do let b ← EpsilonEquality.epsilonEquals x RField.zero; pure !b) row.entries

/-- algorithm.rs:40-50 `zero_rows`. -/
def zeroRows [EpsilonEquality F] (M : Mat F) : Res Nat :=
  (List.range M.rows).foldlM (fun zeroRows r => do
    match ← M.firstNonzero r with
    | none => pure (zeroRows + 1)
    | some _ => pure zeroRows) 0

/-- algorithm.rs:55-62 `permute_under_diagonal`. -/
def permuteUnderDiagonal (M : Mat F) (src target : Nat) : Res (Mat F) :=
  (List.range src).foldlM (fun M c => M.swap (src, c) (target, c)) M

end Mat

/-! ### LU decomposition -/

/-- algorithm.rs:67-71 `LUDecomposition`. -/
structure LU (F : Type) where
  p : Mat F
  l : Mat F
  u : Mat F
  deriving DecidableEq, Repr

/-- algorithm.rs:73-77 `LUDecompositionInternal`. -/
structure LUInternal (F : Type) where
  p : List Nat
  l : Mat F
  u : Mat F

namespace LUInternal

/-- algorithm.rs:81-85 `permute`. -/
def permute (lu : LUInternal F) (src target : Nat) : Res (LUInternal F) := do
  let p ← Mat.swapList lu.p src target
  let u ← lu.u.permuteRows src target
  let l ← lu.l.permuteUnderDiagonal src target
  pure ⟨p, l, u⟩

/-- algorithm.rs:87-90 `scale_row`. -/
def scaleRow (lu : LUInternal F) (r : Nat) (scalar : F) : Res (LUInternal F) := do
  let l ← lu.l.set r r scalar
  let s ← RField.div RField.one scalar
  let u ← lu.u.scaleRow r s
  pure ⟨lu.p, l, u⟩

/-- algorithm.rs:92-98 `replace_col_under_row`. -/
def replaceColUnderRow (lu : LUInternal F) (r c : Nat) : Res (LUInternal F) :=
  (List.range' (r + 1) (lu.u.rows - (r + 1))).foldlM (fun lu r2 => do
    let scalar2 ← lu.u.get r2 c
    let s ← RField.sub RField.zero scalar2
    let u ← lu.u.replaceRow r r2 s
    let l ← lu.l.set r2 r scalar2
    pure ⟨lu.p, l, u⟩) lu

end LUInternal

/-- algorithm.rs:130-142, the loop of `lu` over the columns still to come. -/
def Mat.luFor [EpsilonEquality F] [StabilityCmp F] (n : Nat) :
    List Nat → Nat → LUInternal F → Res (LUInternal F)
  | [], _, lu => .ok lu
  | c :: cs, r, lu =>
    if r ≥ n then .ok lu
    else do
      match ← lu.u.getStable c r with
      | some (stableIndex, scalar) => do
        let lu ← lu.permute r stableIndex
        let lu ← lu.scaleRow r scalar
        let lu ← lu.replaceColUnderRow r c
        luFor n cs (r + 1) lu
      | none => luFor n cs r lu

/-- algorithm.rs:115-148 `lu`. -/
def Mat.lu [EpsilonEquality F] [StabilityCmp F] (M : Mat F) : Res (LU F) := do
  let lu ← Mat.luFor M.rows (List.range M.cols) 0 ⟨List.range M.rows, Mat.identity M.rows, M⟩
  pure ⟨Mat.permutationFromVec lu.p, lu.l, lu.u⟩

/-! ### Row equivalent forms -/

/-- algorithm.rs:156-163 `RowEquivalentForm`.  The two `const` parameters of the Rust type only
select which methods exist. -/
structure Form (F : Type) where
  p : Mat F
  b : Mat F
  original : Mat F
  deriving DecidableEq, Repr

namespace Form

/-- algorithm.rs:167-170 `permute_rows`. -/
def permuteRows (f : Form F) (r1 r2 : Nat) : Res (Form F) := do
  let p ← f.p.permuteRows r1 r2
  let b ← f.b.permuteRows r1 r2
  pure { f with p, b }

/-- algorithm.rs:172-175 `scale_row`. -/
def scaleRow (f : Form F) (r : Nat) (scalar : F) : Res (Form F) := do
  let p ← f.p.scaleRow r scalar
  let b ← f.b.scaleRow r scalar
  pure { f with p, b }

/-- algorithm.rs:181-183 and 191-193, the body of the loops of `replace_col_under_row` and
`replace_col_above_row`. -/
def replaceStep (r c : Nat) (f : Form F) (r2 : Nat) : Res (Form F) := do
  let scalar2 ← f.b.get r2 c
  let s ← RField.sub RField.zero scalar2
  let p ← f.p.replaceRow r r2 s
  let s ← RField.sub RField.zero scalar2
  let b ← f.b.replaceRow r r2 s
  pure { f with p, b }

/-- algorithm.rs:179-185 `replace_col_under_row`. -/
def replaceColUnderRow (f : Form F) (r c : Nat) : Res (Form F) :=
  (List.range' (r + 1) (f.b.rows - (r + 1))).foldlM (replaceStep r c) f

/-- algorithm.rs:189-195 `replace_col_above_row`. -/
def replaceColAboveRow (f : Form F) (r c : Nat) : Res (Form F) :=
  (List.range r).foldlM (replaceStep r c) f

/-- algorithm.rs:210-212 `rank`. -/
def rank [EpsilonEquality F] (f : Form F) : Res Nat := do
  let z ← f.b.zeroRows
  Usize.sub (RField.build F) f.b.rows z

/-- algorithm.rs:205-207 `nullity`. -/
def nullity [EpsilonEquality F] (f : Form F) : Res Nat := do
  let k ← f.rank
  Usize.sub (RField.build F) f.b.cols k

end Form

/-- algorithm.rs:232-244, the loop of `row_echelon` over the columns still to come. -/
def Mat.rowEchelonFor [EpsilonEquality F] [StabilityCmp F] (n : Nat) :
    List Nat → Nat → Form F → Res (Form F)
  | [], _, f => .ok f
  | c :: cs, r, f =>
    if r ≥ n then .ok f
    else do
      match ← f.b.getStable c r with
      | some (stableIndex, scalar) => do
        let f ← f.permuteRows r stableIndex
        let s ← RField.div RField.one scalar
        let f ← f.scaleRow r s
        let f ← f.replaceColUnderRow r c
        rowEchelonFor n cs (r + 1) f
      | none => rowEchelonFor n cs r f

/-- algorithm.rs:219-247 `row_echelon`. -/
def Mat.rowEchelon [EpsilonEquality F] [StabilityCmp F] (M : Mat F) : Res (Form F) :=
  Mat.rowEchelonFor M.rows (List.range M.cols) 0 ⟨Mat.identity M.rows, M, M⟩

namespace Form

/-- algorithm.rs:254-270 `to_rref`. -/
def toRref [EpsilonEquality F] (f : Form F) : Res (Form F) :=
  (List.range' 1 (f.b.rows - 1)).reverse.foldlM (fun f r => do
    match ← f.b.firstNonzero r with
    | some c => f.replaceColAboveRow r c
    | none => pure f) f

/-- algorithm.rs:280-284 and 309-313: the set of bound variables, as a list without duplicates (in
order of last occurrence; the order of a `HashSet` is not observable through `contains`). -/
def boundVariables [EpsilonEquality F] (f : Form F) : Res (List Nat) := do
  let l ← (List.range f.b.rows).mapM fun r => f.b.firstNonzero r
  pure (l.filterMap id).dedup

/-- algorithm.rs:276-302 `compute_kernel`. -/
def computeKernel [EpsilonEquality F] (f : Form F) : Res (List (Mat F)) := do
  let bound ← f.boundVariables
  ((List.range f.b.cols).filter fun c => !bound.contains c).mapM fun c =>
    (List.range f.b.rows).foldlM (fun vector r => do
      match ← f.b.firstNonzero r with
      | some c2 =>
        if c2 < c then do
          let x ← f.b.get r c
          let y ← RField.sub RField.zero x
          vector.set c2 0 y
        else pure vector
      | none => pure vector) (Mat.e c f.b.cols)

/-- algorithm.rs:305-316 `compute_range`.  The iteration order of the `HashSet` is arbitrary (it is
randomised in Rust): `order` lists the elements of the set in that order. -/
def computeRange [EpsilonEquality F] (order : List Nat → List Nat) (f : Form F) :
    Res (List (Mat F)) := do
  let bound ← f.boundVariables
  (order bound).mapM fun c => f.original.getCol c

end Form
end Verif
