import Verif.Props.Ranks
import Verif.Props.Solve

/-!
# Property C240: least squares

Conventions as in `Props/Elim.lean`.
-/

set_option linter.unusedSectionVars false

namespace Verif
open Res LawfulRField LinAlg

/-- The reduced row echelon form of `A.transpose() * A`, its rank, and `p * (A.transpose() * y)`. -/
def normalEquations {F : Type} [RField F] [EpsilonEquality F] [StabilityCmp F] (M Y : Mat F) :
    Res (Form F × ℕ × Mat F) := do
  let T ← M.transpose
  let G ← T.mul M
  let h ← T.mul Y
  let x ← (do let f ← rref G; let r ← f.rank; pure (f, r))
  let z ← x.1.p.mul h
  pure (x.1, x.2, z)

/-- The sum of the squares of the entries. -/
def sumSquares {n : ℕ} (v : Fin n → ℚ) : ℚ := ∑ i, v i ^ 2

section
variable {n m : ℕ} (A : Matrix (Fin n) (Fin m) ℚ) (y : Fin n → ℚ)

theorem sumSquares_eq (v : Fin n → ℚ) : sumSquares v = v ⬝ᵥ v :=
  Finset.sum_congr rfl fun _ _ => pow_two _

theorem sumSquares_nonneg (v : Fin n → ℚ) : 0 ≤ sumSquares v :=
  Finset.sum_nonneg fun _ _ => sq_nonneg _

theorem sumSquares_eq_zero {v : Fin n → ℚ} (h : sumSquares v ≤ 0) : v = 0 := by
  have h0 : sumSquares v = 0 := le_antisymm h (sumSquares_nonneg v)
  funext i
  have := (Finset.sum_eq_zero_iff_of_nonneg (fun i _ => sq_nonneg (v i))).mp h0 i (Finset.mem_univ i)
  exact pow_eq_zero_iff (two_ne_zero) |>.mp this

/-- The normal equations have a solution. -/
theorem normal_solvable : ∃ x, (A.transpose * A).mulVec x = A.transpose.mulVec y := by
  have hle : LinearMap.range (A.transpose * A).mulVecLin ≤ LinearMap.range A.transpose.mulVecLin := by
    rw [Matrix.mulVecLin_mul]
    exact LinearMap.range_comp_le_range _ _
  have heq := Submodule.eq_of_le_of_finrank_eq hle (by
    have h1 := Matrix.rank_transpose_mul_self A
    have h2 := Matrix.rank_transpose A
    rw [Matrix.rank] at h1 h2
    rw [h1, h2])
  have : A.transpose.mulVec y ∈ LinearMap.range A.transpose.mulVecLin := ⟨y, rfl⟩
  rw [← heq] at this
  exact this

/-- The error at `x'` is that at a solution `x` of the normal equations plus that of the difference. -/
theorem sumSquares_normal {x : Fin m → ℚ} (hx : (A.transpose * A).mulVec x = A.transpose.mulVec y)
    (x' : Fin m → ℚ) : sumSquares (A.mulVec x' - y) =
      sumSquares (A.mulVec x - y) + sumSquares (A.mulVec (x' - x)) := by
  have h0 : A.transpose.mulVec (A.mulVec x - y) = 0 := by
    rw [Matrix.mulVec_sub, Matrix.mulVec_mulVec, hx, sub_self]
  have h1 : A.mulVec (x' - x) ⬝ᵥ (A.mulVec x - y) = 0 := by
    rw [dotProduct_comm, Matrix.dotProduct_mulVec, ← Matrix.mulVec_transpose, h0, zero_dotProduct]
  have h2 : A.mulVec x' - y = (A.mulVec x - y) + A.mulVec (x' - x) := by
    rw [Matrix.mulVec_sub]; abel
  rw [h2, sumSquares_eq, sumSquares_eq, sumSquares_eq, add_dotProduct, dotProduct_add, dotProduct_add,
    dotProduct_comm (A.mulVec x - y) (A.mulVec (x' - x)), h1]
  ring

/-- The solutions of the normal equations are the points with the least error. -/
theorem normal_iff_least (x : Fin m → ℚ) : (A.transpose * A).mulVec x = A.transpose.mulVec y ↔
    ∀ x', sumSquares (A.mulVec x - y) ≤ sumSquares (A.mulVec x' - y) := by
  constructor
  · intro hx x'
    rw [sumSquares_normal A y hx x']
    exact le_add_of_nonneg_right (sumSquares_nonneg _)
  · intro h
    obtain ⟨x₀, h₀⟩ := normal_solvable A y
    have h1 := h x₀
    rw [sumSquares_normal A y h₀ x] at h1
    have h2 : A.mulVec (x - x₀) = 0 := sumSquares_eq_zero (by linarith)
    rw [Matrix.mulVec_sub, sub_eq_zero] at h2
    rw [← Matrix.mulVec_mulVec, h2, Matrix.mulVec_mulVec, h₀]

variable (M Y : Mat Rational) (hm : m * m < 18446744073709551616)
include hm

/-- C240. The points where the sum of the squares of the entries of `A x - y` is least are the solutions of
`B x = z`, which has solutions as `z` vanishes in the rows from `rank()` on; if `rank()` is the number of
columns, `z` is the only one. -/
theorem C240_least_squares :
    letI := Rational.field .debug
    letI := Rational.lawful
    letI := Rational.stability .debug
    M.Represents A → Y.RepresentsVec y →
    Spec IsOverflow (normalEquations M Y) (fun (f, r, Z) =>
      ∃ (B : Matrix (Fin m) (Fin m) ℚ) (z : Fin m → ℚ), f.b.Represents B ∧ Z.RepresentsVec z ∧
        (∀ x, B.mulVec x = z ↔ ∀ x', sumSquares (A.mulVec x - y) ≤ sumSquares (A.mulVec x' - y)) ∧
        (∀ i : Fin m, r ≤ i → z i = 0) ∧ r = A.rank ∧
        (r = m → ∀ x, (∀ x', sumSquares (A.mulVec x - y) ≤ sumSquares (A.mulVec x' - y)) ↔ x = z)) := by
  let _ := Rational.field .debug
  let _ := Rational.lawful
  let _ := Rational.stability .debug
  have := Rational.lawfulPivot
  intro hM hY
  have hm1 : m * 1 < 18446744073709551616 := by nlinarith
  refine ((C53_transpose M A hM).mono (fun _ h => h.elim) fun _ h => h).bind fun T hT => ?_
  refine (C52_mul T M _ A hT hM hm).bind fun G hG => ?_
  refine (C52_mul T Y _ _ hT hY hm1).bind fun h hh => ?_
  have hrank : Spec (allowed Rational) (do let f ← rref G; let r ← f.rank; pure (f, r))
      (fun x => x.2 = (A.transpose * A).rank) := by
    refine (rref_spec G _ hG hm).bind ?_
    rintro f ⟨b, k, piv, hf, he⟩
    refine (hf.rank he.toEch).bind ?_
    rintro _ rfl
    obtain ⟨p, _, hu, hpa⟩ := hf.p_is
    rw [mat_matExt] at hpa
    have hr := he.toEch.rank_eq
    rw [← hpa, rank_of_unit hu] at hr
    exact hr.symm
  refine (((C110_solve G _ hG hm (A.transpose.mulVec y)).and (C110_inverse G _ hG hm)).and hrank).bind ?_
  rintro ⟨f, r⟩ ⟨⟨⟨P, B, hP, hB, hsol, hex⟩, hinv, hfull, _⟩, hr⟩
  have hr : r = (A.transpose * A).rank := hr
  refine (C52_mul f.p h P _ hP hh hm1).bind fun Z hZ => ?_
  have hz : Z.RepresentsVec (P.mulVec (A.transpose.mulVec y)) := by
    have he : P * (A.transpose * Matrix.of fun (i : Fin n) (_ : Fin 1) => y i) =
        Matrix.of fun (i : Fin m) (_ : Fin 1) => P.mulVec (A.transpose.mulVec y) i := by
      ext i j
      rfl
    rw [he] at hZ
    exact hZ
  have hleast := fun x => (hsol x).symm.trans (normal_iff_least A y x)
  refine ⟨B, _, hB, hz, hleast, hex.mp (normal_solvable A y), ?_, ?_⟩
  · rw [hr, Matrix.rank_transpose_mul_self]
  · intro hrm x
    have h1 : B = 1 := hB.unique (hinv.mpr (hfull.mp hrm))
    rw [← hleast, h1, Matrix.one_mulVec]

end

/-! ### Examples -/

/-- The line closest to the points `(0, 1)`, `(1, 2)`, `(2, 4)`: the error is least at `5/6 + 3/2 x`. -/
theorem C240_run : letI := Rational.field .debug
    letI := Rational.lawful
    letI := Rational.stability .debug
    (∃ A : Matrix (Fin 3) (Fin 2) ℚ, (ratMat 3 2 [1, 0, 1, 1, 1, 2]).Represents A) ∧
    (do let x ← normalEquations (ratMat 3 2 [1, 0, 1, 1, 1, 2]) (ratMat 3 1 [1, 2, 4]); pure (x.1.b, x.2)) =
      .ok (ratMat 2 2 [1, 0, 0, 1], 2, ⟨[⟨5, 6⟩, ⟨3, 2⟩], 2, 1⟩) := by
  refine ⟨?_, by decide +kernel⟩
  let _ := Rational.field .debug
  let _ := Rational.lawful
  exact ⟨_, ratMat_represents 3 2 _ rfl (by decide) (by decide) (by decide)⟩

end Verif
