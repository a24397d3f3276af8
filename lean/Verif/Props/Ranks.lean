import Verif.Props.Elim
import Mathlib.LinearAlgebra.FiniteDimensional.Lemmas

/-!
# Property C205: elimination on matrices computed from others

Conventions as in `Props/Elim.lean`.
-/

set_option linter.unusedSectionVars false

namespace Verif
open Res LawfulRField LinAlg

variable {F : Type} [RField F] {K : Type} [Field K] [LawfulRField F K] [EpsilonEquality F]
  [StabilityCmp F] [LawfulPivot F K]

omit [LawfulPivot F K] [LawfulRField F K] in
/-- `M.row_echelon().rank()` -/
def rankOf (M : Mat F) : Res ℕ := do
  let f ← M.rowEchelon
  f.rank

omit [LawfulPivot F K] [LawfulRField F K] in
/-- `M.row_echelon().to_rref().compute_kernel()` -/
def kernelOf (M : Mat F) : Res (List (Mat F)) := do
  let f ← rref M
  f.computeKernel

omit [LawfulPivot F K] [LawfulRField F K] in
/-- `M.row_echelon().to_rref().compute_range()` -/
def rangeOf (order : List ℕ → List ℕ) (M : Mat F) : Res (List (Mat F)) := do
  let f ← rref M
  f.computeRange order

theorem rank_mul_sylvester {n m q : ℕ} (A : Matrix (Fin n) (Fin m) K) (B : Matrix (Fin m) (Fin q) K) :
    A.rank + B.rank ≤ (A * B).rank + m := by
  have h1 := (A.mulVecLin.domRestrict (LinearMap.range B.mulVecLin)).finrank_range_add_finrank_ker
  have h2 := A.mulVecLin.finrank_range_add_finrank_ker
  have h3 : LinearMap.range (A.mulVecLin.domRestrict (LinearMap.range B.mulVecLin)) =
      LinearMap.range (A * B).mulVecLin := by
    rw [LinearMap.range_domRestrict, Matrix.mulVecLin_mul, LinearMap.range_comp]
  have h4 : Module.finrank K (LinearMap.ker (A.mulVecLin.domRestrict (LinearMap.range B.mulVecLin))) ≤
      Module.finrank K (LinearMap.ker A.mulVecLin) := by
    rw [LinearMap.ker_domRestrict,
      ← Submodule.finrank_map_subtype_eq (LinearMap.range B.mulVecLin)]
    exact Submodule.finrank_mono (by rw [Submodule.map_comap_subtype]; exact inf_le_right)
  rw [h3] at h1
  rw [Module.finrank_fin_fun] at h2
  unfold Matrix.rank
  omega

theorem rank_add_le' {n m : ℕ} (A B : Matrix (Fin n) (Fin m) K) : (A + B).rank ≤ A.rank + B.rank := by
  unfold Matrix.rank
  refine le_trans (Submodule.finrank_mono ?_) (Submodule.finrank_add_le_finrank_add_finrank _ _)
  rw [Matrix.mulVecLin_add]
  exact LinearMap.range_add_le _ _

section
variable {n m : ℕ} (M : Mat F) (A : Matrix (Fin n) (Fin m) K) (hM : M.Represents A)
  (hn : n * n < 18446744073709551616)
include hM hn

theorem rankOf_spec : Spec (allowed F) (rankOf M) (fun r => r = A.rank) := by
  refine (hM.is.rowEchelon hn).bind ?_
  rintro f ⟨b, k, piv, hf, he⟩
  refine (hf.rank he).imp ?_
  rintro _ rfl
  obtain ⟨p, _, hu, hpa⟩ := hf.p_is
  rw [mat_matExt] at hpa
  have hr := he.rank_eq
  rw [← hpa, rank_of_unit hu] at hr
  exact hr.symm

/-- C205. A matrix and its transpose have the same rank. -/
theorem C205_transpose (hm : m * m < 18446744073709551616) :
    Spec (allowed F) (do
      let T ← M.transpose
      let r ← rankOf M
      let s ← rankOf T
      pure (r, s)) (fun x => x.1 = x.2) := by
  refine ((C53_transpose M A hM).mono (fun _ h => h.elim) fun _ h => h).bind fun T hT => ?_
  refine (rankOf_spec M A hM hn).bind fun r hr => ?_
  refine (rankOf_spec T _ hT hm).bind fun s hs => ?_
  show r = s
  rw [hr, hs, Matrix.rank_transpose]

/-- C205. The kernel of the transpose: its vectors are orthogonal to all columns, in particular to those
that `compute_range` returns, and both together are as many as there are rows. -/
theorem C205_orthogonal (hm : m * m < 18446744073709551616) (order : List ℕ → List ℕ)
    (ho : ∀ l, (order l).Perm l) :
    Spec (allowed F) (do
      let T ← M.transpose
      let ks ← kernelOf T
      let rs ← rangeOf order M
      pure (ks, rs)) (fun x => x.1.length + x.2.length = n ∧
        ∀ v ∈ x.1, ∀ w ∈ x.2, Spec (allowed F) (v.dot w) fun c => wf c ∧ val c = (0 : K)) := by
  refine ((C53_transpose M A hM).mono (fun _ h => h.elim) fun _ h => h).bind fun T hT => ?_
  refine (C64_kernel T _ hT hm).bind fun ks ⟨v, hv, hvi, hvs⟩ => ?_
  refine (C65_range M A hM hn order ho).bind fun rs ⟨c, hc, hci, hcs⟩ => ?_
  refine ⟨?_, fun x hx y hy => ?_⟩
  · have h1 := finrank_span_eq_card hvi
    have h2 := finrank_span_eq_card hci
    rw [hvs, finrank_ker, Matrix.rank_transpose, Fintype.card_fin] at h1
    rw [hcs, Fintype.card_fin] at h2
    have h3 : A.rank ≤ n := A.rank_le_height
    have h4 : A.rank = rs.length := h2
    show ks.length + rs.length = n
    omega
  · obtain ⟨i, rfl⟩ := List.get_of_mem hx
    obtain ⟨j, rfl⟩ := List.get_of_mem hy
    refine (C56_dot _ _ _ _ (hv i) (hc j)).imp fun d hd => ⟨hd.1, ?_⟩
    rw [hd.2]
    have : v i ∈ LinearMap.ker A.transpose.mulVecLin := hvs ▸ Submodule.subset_span ⟨i, rfl⟩
    have := congrFun (LinearMap.mem_ker.mp this) (c j)
    rw [dotProduct_comm]
    exact this

end

section
variable {n m q : ℕ}

/-- C205. The rank of a product is at most that of each factor, and at least their sum less the number of
columns of the first. -/
theorem C205_product (M N : Mat F) (A : Matrix (Fin n) (Fin m) K) (B : Matrix (Fin m) (Fin q) K)
    (hM : M.Represents A) (hN : N.Represents B) (hn : n * n < 18446744073709551616)
    (hm : m * m < 18446744073709551616) (hnq : n * q < 18446744073709551616) :
    Spec (allowed F) (do
      let R ← M.mul N
      let r ← rankOf M
      let s ← rankOf N
      let t ← rankOf R
      pure (r, s, t)) (fun x => x.2.2 ≤ x.1 ∧ x.2.2 ≤ x.2.1 ∧ x.1 + x.2.1 ≤ x.2.2 + m) := by
  refine (C52_mul M N A B hM hN hnq).bind fun R hR => ?_
  refine (rankOf_spec M A hM hn).bind fun r hr => ?_
  refine (rankOf_spec N B hN hm).bind fun s hs => ?_
  refine (rankOf_spec R _ hR hn).bind fun t ht => ?_
  show t ≤ r ∧ t ≤ s ∧ r + s ≤ t + m
  rw [hr, hs, ht]
  exact ⟨Matrix.rank_mul_le_left A B, Matrix.rank_mul_le_right A B, rank_mul_sylvester A B⟩

/-- C205. The rank of a sum is at most the sum of the ranks. -/
theorem C205_sum (M N : Mat F) (A B : Matrix (Fin n) (Fin m) K) (hM : M.Represents A)
    (hN : N.Represents B) (hn : n * n < 18446744073709551616) :
    Spec (allowed F) (do
      let R ← M.add N
      let r ← rankOf M
      let s ← rankOf N
      let t ← rankOf R
      pure (r, s, t)) (fun x => x.2.2 ≤ x.1 + x.2.1) := by
  refine (C52_add M N A B hM hN).bind fun R hR => ?_
  refine (rankOf_spec M A hM hn).bind fun r hr => ?_
  refine (rankOf_spec N B hN hn).bind fun s hs => ?_
  refine (rankOf_spec R _ hR hn).bind fun t ht => ?_
  show t ≤ r + s
  rw [hr, hs, ht]
  exact rank_add_le' A B

/-- C205. Two matrices of the same size have the same reduced row echelon form exactly when their kernels
are equal. -/
theorem C205_kernels (M N : Mat F) (A B : Matrix (Fin n) (Fin m) K) (hM : M.Represents A)
    (hN : N.Represents B) (hn : n * n < 18446744073709551616) :
    Spec (allowed F) (do
      let f ← rref M
      let g ← rref N
      pure (f, g)) (fun x => (∃ C : Matrix (Fin n) (Fin m) K, x.1.b.Represents C ∧ x.2.b.Represents C) ↔
        ∀ v, A.mulVec v = 0 ↔ B.mulVec v = 0) := by
  refine (rref_spec M A hM hn).bind fun f ⟨b, k, piv, hf, he⟩ => ?_
  refine (rref_spec N B hN hn).bind fun g ⟨b', k', piv', hg, he'⟩ => ?_
  obtain ⟨p, _, hu, hpa⟩ := hf.p_is
  obtain ⟨p', _, hu', hpa'⟩ := hg.p_is
  rw [mat_matExt] at hpa hpa'
  have hb : f.b.Represents (mat n m b) := hf.b_is.represents fun _ _ => rfl
  have hb' : g.b.Represents (mat n m b') := hg.b_is.represents fun _ _ => rfl
  constructor
  · rintro ⟨C, h1, h2⟩ v
    rw [← mulVec_unit hu (A := A), hpa, ← mulVec_unit hu' (A := B), hpa', hb.unique h1, hb'.unique h2]
  · intro h
    refine ⟨mat n m b, hb, hg.b_is.represents fun i j => ?_⟩
    refine (he.unique he' (fun x => ?_) m le_rfl i i.2 j j.2).symm
    rw [← mulVec_eq_zero, ← mulVec_eq_zero, ← hpa, ← hpa', mulVec_unit hu, mulVec_unit hu', h]

end

/-- C205. Over the rationals the transpose times the matrix has the same rank as the matrix. -/
theorem C205_gram {n m : ℕ} (M : Mat Rational) (A : Matrix (Fin n) (Fin m) ℚ)
    (hn : n * n < 18446744073709551616) (hm : m * m < 18446744073709551616) :
    letI := Rational.field .debug
    letI := Rational.lawful
    letI := Rational.stability .debug
    M.Represents A →
    Spec IsOverflow (do
      let T ← M.transpose
      let G ← T.mul M
      let r ← rankOf M
      let s ← rankOf G
      pure (r, s)) (fun x => x.1 = x.2) := by
  let _ := Rational.field .debug
  let _ := Rational.lawful
  let _ := Rational.stability .debug
  have := Rational.lawfulPivot
  intro hM
  refine ((C53_transpose M A hM).mono (fun _ h => h.elim) fun _ h => h).bind fun T hT => ?_
  refine (C52_mul T M _ A hT hM hm).bind fun G hG => ?_
  refine (rankOf_spec M A hM hn).bind fun r hr => ?_
  refine (rankOf_spec G _ hG hm).bind fun s hs => ?_
  show r = s
  rw [hr, hs, Matrix.rank_transpose_mul_self]

/-! ### Examples -/

/-- A matrix of rank 2 with a kernel of its transpose: the hypotheses hold, `(2, 1, -1)` is orthogonal to
the first two columns, and the transpose times the matrix has rank 2. -/
example : letI := Rational.field .debug
    letI := Rational.lawful
    letI := Rational.stability .debug
    (∃ A : Matrix (Fin 3) (Fin 3) ℚ, (ratMat 3 3 [1, 0, 2, 0, 1, 1, 2, 1, 5]).Represents A) ∧
    (do let T ← (ratMat 3 3 [1, 0, 2, 0, 1, 1, 2, 1, 5]).transpose; kernelOf T) =
      .ok [ratMat 3 1 [-2, -1, 1]] ∧
    rangeOf id (ratMat 3 3 [1, 0, 2, 0, 1, 1, 2, 1, 5]) = .ok [ratMat 3 1 [1, 0, 2], ratMat 3 1 [0, 1, 1]] ∧
    (do
      let T ← (ratMat 3 3 [1, 0, 2, 0, 1, 1, 2, 1, 5]).transpose
      let G ← T.mul (ratMat 3 3 [1, 0, 2, 0, 1, 1, 2, 1, 5])
      rankOf G) = .ok 2 := by
  refine ⟨?_, by decide +kernel, by decide +kernel, by decide +kernel⟩
  let _ := Rational.field .debug
  let _ := Rational.lawful
  exact ⟨_, ratMat_represents 3 3 _ rfl (by decide) (by decide) (by decide)⟩

/-- The bounds for the rank of a product are attained: two matrices of rank 1 whose product is zero. -/
example : letI := Rational.field .debug
    letI := Rational.stability .debug
    (do
      let R ← (ratMat 2 2 [1, 0, 0, 0]).mul (ratMat 2 2 [0, 0, 0, 1])
      let r ← rankOf (ratMat 2 2 [1, 0, 0, 0])
      let s ← rankOf (ratMat 2 2 [0, 0, 0, 1])
      let t ← rankOf R
      pure (r, s, t)) = .ok (1, 1, 0) := by
  decide +kernel

end Verif
