import Verif.Proofs.LU
import Verif.Proofs.Rref
import Verif.Proofs.Represents
import Mathlib.LinearAlgebra.Matrix.Block
import Mathlib.LinearAlgebra.FiniteDimensional.Lemmas

/-!
# Elimination in terms of Mathlib's matrices
-/

set_option linter.unusedSectionVars false

namespace Verif

open Res LawfulRField LinAlg

section math
variable {K : Type} [Field K] {n m k : ℕ}

/-- `B` is in row echelon form with unit pivots: its first `k` rows have their first nonzero entry,
a one, in the columns `piv 0 < piv 1 < …`; its other rows are zero. -/
structure RowEchelon (B : Matrix (Fin n) (Fin m) K) (k : ℕ) (piv : Fin k → Fin m) : Prop where
  le : k ≤ n
  mono : StrictMono piv
  one : ∀ r, B (r.castLE le) (piv r) = 1
  left : ∀ r j, j < piv r → B (r.castLE le) j = 0
  zero : ∀ i : Fin n, k ≤ i → ∀ j, B i j = 0

/-- Reduced row echelon form: moreover the pivot is the only nonzero entry of its column. -/
structure ReducedRowEchelon (B : Matrix (Fin n) (Fin m) K) (k : ℕ) (piv : Fin k → Fin m) : Prop extends
    RowEchelon B k piv where
  unit : ∀ r (i : Fin n), i ≠ r.castLE le → B i (piv r) = 0

variable {b a : ℕ → ℕ → K} {piv : ℕ → ℕ}

theorem mat_matExt (A : Matrix (Fin n) (Fin m) K) : mat n m (matExt A) = A := by
  ext i j; exact matExt_fin A i j

theorem Ech.rowEchelon (h : Ech n m k piv b) :
    RowEchelon (mat n m b) k (fun r => ⟨piv r, h.lt r r.2⟩) where
  le := h.le
  mono r s hrs := h.mono r s hrs s.2
  one r := h.one r r.2
  left r j hj := h.left r r.2 j hj
  zero i hi j := h.below i hi i.2 j j.2

theorem REch.reduced (h : REch n m k piv b) :
    ReducedRowEchelon (mat n m b) k (fun r => ⟨piv r, h.lt r r.2⟩) :=
  { h.toEch.rowEchelon with
    unit := fun r i hi => by
      have := h.col (i := i) i.2 r.2
      rw [if_neg] at this
      · exact this
      · intro e; exact hi (Fin.ext e) }

theorem Ech.rank_eq (h : Ech n m k piv b) : (mat n m b).rank = k := by
  rw [Matrix.rank_eq_finrank_span_row]
  have hs : Submodule.span K (Set.range (mat n m b).row) =
      Submodule.span K (Set.range fun r : Fin k => (mat n m b).row (r.castLE h.le)) := by
    apply le_antisymm
    · rw [Submodule.span_le]
      rintro _ ⟨i, rfl⟩
      by_cases hi : (i : ℕ) < k
      · exact Submodule.subset_span ⟨⟨i, hi⟩, rfl⟩
      · have : (mat n m b).row i = 0 := by
          ext j; exact h.below i (by omega) i.2 j j.2
        rw [this]; exact Submodule.zero_mem _
    · rw [Submodule.span_le]
      rintro _ ⟨r, rfl⟩
      exact Submodule.subset_span ⟨_, rfl⟩
  rw [hs, finrank_span_eq_card, Fintype.card_fin]
  rw [Fintype.linearIndependent_iff]
  intro g hg r
  have := h.rows_indep (fun r => if h : r < k then g ⟨r, h⟩ else 0) ?_ r r.2
  · rwa [dif_pos r.2] at this
  · intro j hj
    rw [Finset.sum_range]
    have h1 := congrFun hg ⟨j, hj⟩
    rw [Finset.sum_apply] at h1
    rw [Pi.zero_apply] at h1
    rw [← h1]
    refine Finset.sum_congr rfl fun i _ => ?_
    rw [dif_pos i.2]
    rfl

theorem rank_of_unit {P : Matrix (Fin n) (Fin n) K} {A : Matrix (Fin n) (Fin m) K} (hP : IsUnit P) :
    (P * A).rank = A.rank :=
  Matrix.rank_mul_eq_right_of_isUnit_det P A ((Matrix.isUnit_iff_isUnit_det P).mp hP)

theorem finrank_ker (A : Matrix (Fin n) (Fin m) K) :
    Module.finrank K (LinearMap.ker A.mulVecLin) = m - A.rank := by
  have := LinearMap.finrank_range_add_finrank_ker A.mulVecLin
  rw [Module.finrank_fin_fun] at this
  rw [Matrix.rank]
  omega

theorem mulVec_unit {P : Matrix (Fin n) (Fin n) K} {A : Matrix (Fin n) (Fin m) K} (hP : IsUnit P)
    (x : Fin m → K) : (P * A).mulVec x = 0 ↔ A.mulVec x = 0 := by
  rw [← Matrix.mulVec_mulVec]
  constructor
  · intro h
    have := (Matrix.mulVec_injective_iff_isUnit.mpr hP)
    exact this (by rw [h, Matrix.mulVec_zero])
  · intro h; rw [h, Matrix.mulVec_zero]

/-- Extension of a vector by zero. -/
def vecExt (x : Fin m → K) (j : ℕ) : K := if h : j < m then x ⟨j, h⟩ else 0

theorem vecExt_fin (x : Fin m → K) (j : Fin m) : vecExt x j = x j := by
  rw [vecExt, dif_pos j.2]

theorem mulVec_eq_zero (x : ℕ → K) : (mat n m b).mulVec (fun j => x j) = 0 ↔
    ∀ i, i < n → ∑ j ∈ Finset.range m, b i j * x j = 0 := by
  constructor
  · intro h i hi
    have := congrFun h ⟨i, hi⟩
    rw [Finset.sum_range]
    exact this
  · intro h
    ext i
    have := h i i.2
    rw [Finset.sum_range] at this
    exact this

theorem mulVec_eq_zero' (x : Fin m → K) : (mat n m b).mulVec x = 0 ↔
    ∀ i, i < n → ∑ j ∈ Finset.range m, b i j * vecExt x j = 0 := by
  rw [← mulVec_eq_zero]
  simp only [vecExt_fin]

/-- The vectors of `compute_kernel`. -/
theorem REch.kernel_basis (h : REch n m k piv b) :
    LinearIndependent K (fun (q : Fin (freeCols m k piv).length) (j : Fin m) =>
      kv b k piv ((freeCols m k piv).get q) j) ∧
    Submodule.span K (Set.range fun (q : Fin (freeCols m k piv).length) (j : Fin m) =>
      kv b k piv ((freeCols m k piv).get q) j) = LinearMap.ker (mat n m b).mulVecLin := by
  have hnd := freeCols_nodup m k piv
  constructor
  · rw [Fintype.linearIndependent_iff]
    intro g hg q
    obtain ⟨hc1, hc2⟩ := mem_freeCols.mp (List.get_mem (freeCols m k piv) q)
    have h1 := congrFun hg ⟨_, hc1⟩
    rw [Finset.sum_apply, Pi.zero_apply, Finset.sum_eq_single q] at h1
    · simp only [Pi.smul_apply, smul_eq_mul] at h1
      rw [kv_free hc2, if_pos rfl, mul_one] at h1
      exact h1
    · intro q' _ hne
      simp only [Pi.smul_apply, smul_eq_mul]
      rw [kv_free hc2, if_neg, mul_zero]
      intro e
      exact hne ((hnd.get_inj_iff.mp e).symm)
    · intro h'; exact absurd (Finset.mem_univ q) h'
  · apply le_antisymm
    · rw [Submodule.span_le]
      rintro _ ⟨q, rfl⟩
      change _ ∈ LinearMap.ker _
      rw [LinearMap.mem_ker, Matrix.mulVecLin_apply,
        mulVec_eq_zero (fun j => kv b k piv ((freeCols m k piv).get q) j)]
      exact fun i hi => h.kv_mem (mem_freeCols.mp (List.get_mem _ q)).1 hi
    · intro x hx
      rw [LinearMap.mem_ker, Matrix.mulVecLin_apply, mulVec_eq_zero'] at hx
      have hx' : x = ∑ q : Fin (freeCols m k piv).length, vecExt x ((freeCols m k piv).get q) •
          (fun (j : Fin m) => kv b k piv ((freeCols m k piv).get q) j) := by
        ext j
        rw [Finset.sum_apply]
        have := h.kernel_eq hx j.2
        rw [vecExt_fin] at this
        rw [this, ← List.ofFn_get ((freeCols m k piv).map _), List.sum_ofFn]
        refine Fintype.sum_equiv (finCongr (by simp)) _ _ fun q => ?_
        simp
      rw [hx']
      exact Submodule.sum_mem _ fun q _ => Submodule.smul_mem _ _ (Submodule.subset_span ⟨q, rfl⟩)

/-- The pivot columns of `a`. -/
theorem Ech.range_basis (h : Ech n m k piv b) {P : Matrix (Fin n) (Fin n) K}
    (hPb : P * mat n m a = mat n m b) (hP : IsUnit P) {cs : List ℕ} (hnd : cs.Nodup)
    (hcs : ∀ c, c ∈ cs ↔ ∃ r, r < k ∧ piv r = c) :
    LinearIndependent K (fun (q : Fin cs.length) (i : Fin n) => a i (cs.get q)) ∧
    Submodule.span K (Set.range fun (q : Fin cs.length) (i : Fin n) => a i (cs.get q)) =
      LinearMap.range (mat n m a).mulVecLin := by
  have hlt : ∀ q : Fin cs.length, cs.get q < m := fun q => by
    obtain ⟨r, hr, he⟩ := (hcs _).mp (List.get_mem cs q)
    rw [← he]; exact h.lt r hr
  have hmul : ∀ q : Fin cs.length, P.mulVec (fun i => a i (cs.get q)) = fun i : Fin n => b i (cs.get q) := by
    intro q
    ext i
    have := congrFun (congrFun hPb i) ⟨cs.get q, hlt q⟩
    exact this
  have hcard : cs.length = k := by
    have h1 : cs.toFinset = (Finset.range k).image piv := by
      ext c; simp [hcs]
    rw [← List.toFinset_card_of_nodup hnd, h1, Finset.card_image_of_injOn, Finset.card_range]
    intro r hr s hs e
    exact h.piv_inj (by simpa using hr) (by simpa using hs) e
  have hind : LinearIndependent K (fun (q : Fin cs.length) (i : Fin n) => a i (cs.get q)) := by
    rw [Fintype.linearIndependent_iff]
    intro g hg q
    -- coefficients indexed by pivots
    let g' : ℕ → K := fun r => ∑ q' : Fin cs.length, if cs.get q' = piv r then g q' else 0
    have hg' : ∀ q', ∀ r, r < k → piv r = cs.get q' → g' r = g q' := by
      intro q' r _ he
      simp only [g']
      rw [Finset.sum_eq_single q']
      · rw [if_pos he.symm]
      · intro q'' _ hne
        rw [if_neg]
        intro e
        exact hne (hnd.get_inj_iff.mp (e.trans he))
      · intro h'; exact absurd (Finset.mem_univ q') h'
    obtain ⟨r, hr, he⟩ := (hcs _).mp (List.get_mem cs q)
    rw [← hg' q r hr he]
    refine h.cols_indep g' (fun i hi => ?_) r hr
    have h1 : ∑ q' : Fin cs.length, g q' * b i (cs.get q') = 0 := by
      have h2 := congrArg P.mulVec hg
      rw [Matrix.mulVec_zero, ← Matrix.mulVecLin_apply, map_sum] at h2
      have h3 := congrFun h2 ⟨i, hi⟩
      rw [Finset.sum_apply, Pi.zero_apply] at h3
      rw [← h3]
      refine Finset.sum_congr rfl fun q' _ => ?_
      rw [map_smul, Matrix.mulVecLin_apply, hmul]
      rfl
    rw [← h1]
    simp only [g', Finset.sum_mul, ite_mul, zero_mul]
    rw [Finset.sum_comm]
    refine Finset.sum_congr rfl fun q' _ => ?_
    obtain ⟨r', hr', he'⟩ := (hcs _).mp (List.get_mem cs q')
    rw [Finset.sum_eq_single r']
    · rw [if_pos he'.symm, he']
    · intro s hs hne
      rw [if_neg]
      intro e
      exact hne (h.piv_inj (by simpa using hs) hr' (e.symm.trans he'.symm))
    · intro h'; exact absurd (Finset.mem_range.mpr hr') h'
  refine ⟨hind, ?_⟩
  apply Submodule.eq_of_le_of_finrank_eq
  · rw [Submodule.span_le]
    rintro _ ⟨q, rfl⟩
    refine ⟨Pi.single ⟨cs.get q, hlt q⟩ 1, ?_⟩
    rw [Matrix.mulVecLin_apply, Matrix.mulVec_single_one]
    rfl
  · rw [finrank_span_eq_card hind, Fintype.card_fin, hcard]
    change k = (mat n m a).rank
    rw [← h.rank_eq, ← hPb, rank_of_unit hP]

/-- A permutation of the numbers below `n` as a permutation of `Fin n`. -/
theorem PermBelow.exists_perm {π : ℕ → ℕ} (h : PermBelow n π) :
    ∃ σ : Equiv.Perm (Fin n), ∀ i : Fin n, (σ i : ℕ) = π i := by
  let f : Fin n → Fin n := fun i => ⟨π i, h.1 i i.2⟩
  have hf : Function.Injective f := fun i j e =>
    Fin.ext (h.2 i j i.2 j.2 (Fin.mk.inj_iff.mp e))
  exact ⟨Equiv.ofBijective f (Finite.injective_iff_bijective.mp hf), fun i => rfl⟩

theorem isUnit_lower {l : ℕ → ℕ → K} (h1 : ∀ i j, i < j → j < n → l i j = 0)
    (h2 : ∀ i, i < n → l i i ≠ 0) : IsUnit (mat n n l) := by
  rw [Matrix.isUnit_iff_isUnit_det, Matrix.det_of_isLowerTriangular, isUnit_iff_ne_zero,
    Finset.prod_ne_zero_iff]
  · intro i _; exact h2 i i.2
  · intro i j hij
    exact h1 i j hij j.2

end math
end Verif
