import Verif.LinAlg.Algorithm

/-!
# Model of `src/linalg/cone.rs`
-/

namespace Verif

/-- `PartialOrd::partial_cmp` of the field (cone.rs:23). -/
class FieldOrd (F : Type) where
  partialCmp : F → F → Res (Option Ordering)

/-- traits.rs:227-231 -/
@[reducible] def Rational.fieldOrd (b : Build) : FieldOrd Rational where
  partialCmp := Rational.partialCmp b

/-- cone.rs:18-21 `Face`. -/
structure Face (F : Type) where
  normal : Mat F
  generators : List (Mat F)
deriving DecidableEq

/-- cone.rs:9-16 `Cone`. -/
structure Cone (F : Type) where
  generators : List (Mat F)
  facets : List (Face F)
  orthCompBasis : List (Mat F)
  ambientDim : Nat
  dim : Nat
deriving DecidableEq

/-- itertools 0.10.1 `combinations(k)`: the sublists of length `k`, in lexicographic order of
positions. -/
def combinationsList {α : Type} : Nat → List α → List (List α)
  | 0, _ => [[]]
  | _ + 1, [] => []
  | k + 1, x :: xs => (combinationsList k xs).map (x :: ·) ++ combinationsList (k + 1) xs

/-- `iter.combinations(k)` first allocates a vector of `k` indices: a capacity overflow panics. -/
def combinations {α : Type} (l : List α) (k : Nat) : Res (List (List α)) :=
  if k ≥ 1152921504606846976 then .panic (.explicit "capacity overflow")
  else .ok (combinationsList k l)

variable {F : Type} [RField F] [EpsilonEquality F] [StabilityCmp F] [FieldOrd F]

namespace Cone

/-- cone.rs:69-82: whether all generators are on the nonnegative side of the normal (`false` is
`continue 'outer`). -/
def allAbove (normal : Mat F) : List (Mat F) → Res Bool
  | [] => .ok true
  | g :: gs => do
    let d ← g.dot normal
    match ← FieldOrd.partialCmp d RField.zero with
    | some .lt => pure false
    | some _ => allAbove normal gs
    | none => pure false

/-- cone.rs:42-91: one iteration of the loop over the subsets: the facet to push, if any. -/
def facetOf (generators : List (Mat F)) (k : Nat) (subset : List (Mat F)) :
    Res (Option (Face F)) := do
  let subsetMat ← Mat.fromRowVectors subset
  let form ← subsetMat.rowEchelon
  let subsetRref ← form.toRref
  let rank ← subsetRref.rank
  if rank ≠ k then pure none
  else do
    let kernel ← subsetRref.computeKernel
    let normal ← Mat.nth kernel 0
    let g0 ← Mat.nth generators 0
    let d ← g0.dot normal
    match ← FieldOrd.partialCmp d RField.zero with
    | none => pure none
    | some ordering => do
      let normal ← match ordering with
        | .lt => do
          let s ← RField.sub (RField.zero : F) RField.one
          normal.scale s
        | _ => pure normal
      if ← allAbove normal generators then pure (some ⟨normal, subset⟩) else pure none

/-- cone.rs:29-101 `Cone::new`.  `dim - 1` is evaluated again in each iteration (line 48), with the
same result. -/
def new (generators : List (Mat F)) : Res (Cone F) := do
  let g0 ← Mat.nth generators 0
  let generatorMat ← Mat.fromRowVectors generators
  let form ← generatorMat.rowEchelon
  let rref ← form.toRref
  let dim ← rref.rank
  let orthCompBasis ← rref.computeKernel
  let k ← Usize.sub (RField.build F) dim 1
  let subsets ← combinations generators k
  let facets ← subsets.foldlM (fun (facets : List (Face F)) subset => do
    match ← facetOf generators k subset with
    | some f => pure (facets ++ [f])
    | none => pure facets) []
  pure ⟨generators, facets, orthCompBasis, g0.rows, dim⟩

end Cone
end Verif
