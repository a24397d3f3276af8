import Verif.Props.Ranks
import Verif.Props.Solve

/-!
# Property C241: inverses of matrices computed by elimination

Conventions as in `Props/Elim.lean`.
-/

set_option linter.unusedSectionVars false

namespace Verif
open Res LawfulRField LinAlg

variable {F : Type} [RField F] {K : Type} [Field K] [LawfulRField F K] [EpsilonEquality F]
  [StabilityCmp F] [LawfulPivot F K]

omit [LawfulPivot F K] [LawfulRField F K] in
/-- The field `p` of `M.row_echelon().to_rref()`. -/
def rrefP (M : Mat F) : Res (Mat F) := do
  let f ← rref M
  pure f.p

/-- The rows of `p` that belong to pivots are a left inverse if there is a pivot in every column. -/
theorem rrefP_spec {n m : ℕ} (M : Mat F) (A : Matrix (Fin n) (Fin m) K) (hM : M.Represents A)
    (hn : n * n < 18446744073709551616) :
    Spec (allowed F) (rrefP M) (fun R => ∃ P : Matrix (Fin n) (Fin n) K, R.Represents P ∧ IsUnit P ∧
      (A.rank = m → ∀ i j, (P * A) i j = if (i : ℕ) = j then 1 else 0)) := by
  refine (rref_spec M A hM hn).bind ?_
  rintro f ⟨b, k, piv, hf, he⟩
  obtain ⟨p, hp, hu, hpa⟩ := hf.p_is
  rw [mat_matExt] at hpa
  refine ⟨mat n n p, hp.represents fun _ _ => rfl, hu, fun hr i j => ?_⟩
  have hk : k = m := by
    have h := he.toEch.rank_eq
    rw [← hpa, rank_of_unit hu, hr] at h
    exact h.symm
  subst hk
  have hred := he.reduced
  have hj := pivots_all hred.mono j
  rw [hpa]
  split
  · rename_i e
    have h := hred.one j
    rw [hj] at h
    rwa [show i = j.castLE hred.le from Fin.ext e]
  · rename_i e
    have h := hred.unit j i fun h => e (congrArg Fin.val h)
    rwa [hj] at h

section
variable {n : ℕ} (M N : Mat F) (A B : Matrix (Fin n) (Fin n) K) (hM : M.Represents A)
  (hN : N.Represents B) (hn : n * n < 18446744073709551616)
include hM hn

theorem rrefP_inverse (hA : IsUnit A) : Spec (allowed F) (rrefP M) (fun R => R.Represents A⁻¹) := by
  refine (rrefP_spec M A hM hn).imp fun R ⟨P, hP, _, h⟩ => ?_
  have h1 : P * A = 1 := by
    ext i j
    rw [h (by rw [Matrix.rank_of_isUnit A hA, Fintype.card_fin]), Matrix.one_apply]
    simp [Fin.ext_iff]
  rwa [Matrix.inv_eq_left_inv h1]

/-- C241. The inverse of the inverse is the matrix, and multiplied with it on either side it gives the
identity. -/
theorem C241_inverse (hA : IsUnit A) :
    Spec (allowed F) (do
      let R ← rrefP M
      let S ← rrefP R
      let X ← M.mul R
      let Y ← R.mul M
      pure (S, X, Y)) (fun x => x.1.Represents A ∧ x.2.1.Represents (1 : Matrix (Fin n) (Fin n) K) ∧
        x.2.2.Represents (1 : Matrix (Fin n) (Fin n) K)) := by
  have hd := (Matrix.isUnit_iff_isUnit_det A).mp hA
  refine (rrefP_inverse M A hM hn hA).bind fun R hR => ?_
  refine (rrefP_inverse R _ hR hn (Matrix.isUnit_nonsing_inv_iff.mpr hA)).bind fun S hS => ?_
  refine (C52_mul M R _ _ hM hR hn).bind fun X hX => ?_
  refine (C52_mul R M _ _ hR hM hn).bind fun Y hY => ?_
  rw [Matrix.nonsing_inv_nonsing_inv A hd] at hS
  rw [Matrix.mul_nonsing_inv A hd] at hX
  rw [Matrix.nonsing_inv_mul A hd] at hY
  exact ⟨hS, hX, hY⟩

/-- C241. The inverse of the transpose is the transpose of the inverse. -/
theorem C241_transpose (hA : IsUnit A) :
    Spec (allowed F) (do
      let T ← M.transpose
      let R ← rrefP T
      let S ← rrefP M
      let X ← S.transpose
      pure (R, X)) (fun x => x.1.Represents A⁻¹.transpose ∧ x.2.Represents A⁻¹.transpose) := by
  refine ((C53_transpose M A hM).mono (fun _ h => h.elim) fun _ h => h).bind fun T hT => ?_
  refine (rrefP_inverse T _ hT hn (Matrix.isUnit_transpose _ |>.mpr hA)).bind fun R hR => ?_
  refine (rrefP_inverse M A hM hn hA).bind fun S hS => ?_
  refine ((C53_transpose S _ hS).mono (fun _ h => h.elim) fun _ h => h).bind fun X hX => ?_
  rw [← Matrix.transpose_nonsing_inv] at hR
  exact ⟨hR, hX⟩

include hN

/-- C241. The inverse of a product is the product of the inverses in the opposite order. -/
theorem C241_product (hA : IsUnit A) (hB : IsUnit B) :
    Spec (allowed F) (do
      let T ← M.mul N
      let R ← rrefP T
      let S ← rrefP M
      let S' ← rrefP N
      let X ← S'.mul S
      pure (R, X)) (fun x => x.1.Represents (A * B)⁻¹ ∧ x.2.Represents (A * B)⁻¹) := by
  refine (C52_mul M N _ _ hM hN hn).bind fun T hT => ?_
  refine (rrefP_inverse T _ hT hn (hA.mul hB)).bind fun R hR => ?_
  refine (rrefP_inverse M A hM hn hA).bind fun S hS => ?_
  refine (rrefP_inverse N B hN hn hB).bind fun S' hS' => ?_
  refine (C52_mul S' S _ _ hS' hS hn).bind fun X hX => ?_
  rw [← Matrix.mul_inv_rev] at hX
  exact ⟨hR, hX⟩

end

section
variable {n m : ℕ} (M : Mat F) (A : Matrix (Fin n) (Fin m) K) (hM : M.Represents A)
include hM

/-- C241. If the rank is the number of columns, the first rows of `p` are a left inverse, and the others
vanish on the columns. -/
theorem C241_left (hn : n * n < 18446744073709551616) (hr : A.rank = m) :
    Spec (allowed F) (do
      let R ← rrefP M
      R.mul M) (fun X => X.Represents
        (Matrix.of fun (i : Fin n) (j : Fin m) => if (i : ℕ) = j then (1 : K) else 0)) := by
  refine (rrefP_spec M A hM hn).bind fun R ⟨P, hP, _, h⟩ => ?_
  have hle : m ≤ n := hr ▸ A.rank_le_height
  have hnm : n * m < 18446744073709551616 := lt_of_le_of_lt (Nat.mul_le_mul_left n hle) hn
  refine (C52_mul R M P A hP hM hnm).imp fun X hX => ?_
  rwa [show P * A = Matrix.of fun (i : Fin n) (j : Fin m) => if (i : ℕ) = j then (1 : K) else 0 from
    Matrix.ext fun i j => h hr i j] at hX

/-- C241. If the rank is the number of rows, the first columns of the transpose of `p` for the transpose
are a right inverse, and the others are in the kernel. -/
theorem C241_right (hm : m * m < 18446744073709551616) (hr : A.rank = n) :
    Spec (allowed F) (do
      let T ← M.transpose
      let R ← rrefP T
      let Q ← R.transpose
      M.mul Q) (fun X => X.Represents
        (Matrix.of fun (i : Fin n) (j : Fin m) => if (i : ℕ) = j then (1 : K) else 0)) := by
  refine ((C53_transpose M A hM).mono (fun _ h => h.elim) fun _ h => h).bind fun T hT => ?_
  refine (rrefP_spec T _ hT hm).bind fun R ⟨P, hP, _, h⟩ => ?_
  refine ((C53_transpose R P hP).mono (fun _ h => h.elim) fun _ h => h).bind fun Q hQ => ?_
  have hle : n ≤ m := hr ▸ A.rank_le_width
  have hnm : n * m < 18446744073709551616 := lt_of_le_of_lt (Nat.mul_le_mul_right m hle) hm
  refine (C52_mul M Q A _ hM hQ hnm).imp fun X hX => ?_
  rwa [show A * P.transpose = Matrix.of fun (i : Fin n) (j : Fin m) => if (i : ℕ) = j then (1 : K) else 0
    from Matrix.ext fun i j => by
      have h1 := h (by rw [Matrix.rank_transpose, hr]) j i
      rw [← Matrix.transpose_transpose A, ← Matrix.transpose_mul, Matrix.transpose_apply, h1]
      simp [eq_comm]] at hX

end

/-! ### Examples -/

/-- An invertible matrix and its inverse (sums are not reduced), and a matrix of rank 2 with a left inverse. -/
theorem C241_run : letI := Rational.field .debug
    letI := Rational.lawful
    letI := Rational.stability .debug
    (∃ A : Matrix (Fin 2) (Fin 2) ℚ, (ratMat 2 2 [2, 1, 5, 3]).Represents A) ∧
    rrefP (ratMat 2 2 [2, 1, 5, 3]) = .ok ⟨[⟨12, 4⟩, ⟨-1, 1⟩, ⟨-5, 1⟩, ⟨2, 1⟩], 2, 2⟩ ∧
    rrefP (ratMat 2 2 [3, -1, -5, 2]) = .ok ⟨[⟨18, 9⟩, ⟨1, 1⟩, ⟨5, 1⟩, ⟨3, 1⟩], 2, 2⟩ ∧
    (do let R ← rrefP (ratMat 3 2 [1, 2, 3, 4, 5, 7]); R.mul (ratMat 3 2 [1, 2, 3, 4, 5, 7])) =
      .ok (ratMat 3 2 [1, 0, 0, 1, 0, 0]) := by
  refine ⟨?_, by decide +kernel, by decide +kernel, by decide +kernel⟩
  let _ := Rational.field .debug
  let _ := Rational.lawful
  exact ⟨_, ratMat_represents 2 2 _ rfl (by decide) (by decide) (by decide)⟩

end Verif
