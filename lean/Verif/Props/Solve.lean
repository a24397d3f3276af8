import Mathlib.LinearAlgebra.Matrix.Block
import Verif.Props.Elim

/-!
# Properties C110 and C111: inverses, determinants and linear systems

`M` represents `A`; the coefficient type is any lawful field with lawful pivoting (see `Props/Elim`).
-/

set_option linter.unusedSectionVars false

namespace Verif
open Res LawfulRField LinAlg

section echelon
variable {K : Type} [Field K]

/-- A strictly increasing choice of `n` out of `n` columns is every column. -/
theorem pivots_all {n : ℕ} {piv : Fin n → Fin n} (h : StrictMono piv) (r : Fin n) : piv r = r := by
  have h1 : r ≤ piv r := h.le_apply
  have h2 : piv r ≤ r := h.apply_le
  exact le_antisymm h2 h1

/-- A square reduced row echelon form of full rank is the identity. -/
theorem ReducedRowEchelon.eq_one {n : ℕ} {B : Matrix (Fin n) (Fin n) K} {piv : Fin n → Fin n}
    (h : ReducedRowEchelon B n piv) : B = 1 := by
  ext i j
  have hj := pivots_all h.mono j
  rw [Matrix.one_apply]
  split
  · rename_i e
    subst e
    have := h.one i
    rwa [hj] at this
  · rename_i e
    have := h.unit j i e
    rwa [hj] at this

theorem RowEchelon.rank_full {n m k : ℕ} {B : Matrix (Fin n) (Fin m) K} {piv : Fin k → Fin m}
    (h : RowEchelon B k piv) (hB : ∀ i, B i ≠ 0) : k = n := by
  by_contra hk
  have hlt : k < n := lt_of_le_of_ne h.le hk
  exact hB ⟨k, hlt⟩ (funext fun j => h.zero ⟨k, hlt⟩ le_rfl j)

theorem row_ne_zero_of_isUnit {n : ℕ} {B : Matrix (Fin n) (Fin n) K} (h : IsUnit B) (i : Fin n) :
    B i ≠ 0 := by
  intro hi
  have := (Matrix.isUnit_iff_isUnit_det B).mp h
  rw [Matrix.det_eq_zero_of_row_eq_zero i fun j => congrFun hi j] at this
  exact not_isUnit_zero this

theorem RowEchelon.upper {n m k : ℕ} {B : Matrix (Fin n) (Fin m) K} {piv : Fin k → Fin m}
    (h : RowEchelon B k piv) (i : Fin n) (j : Fin m) (hij : (j : ℕ) < i) : B i j = 0 := by
  by_cases hi : (i : ℕ) < k
  · have hmono : ∀ r : Fin k, (r : ℕ) ≤ piv r := by
      intro ⟨r, hr⟩
      induction r with
      | zero => exact Nat.zero_le _
      | succ r ih =>
        have h1 := ih (by omega)
        have h2 : piv ⟨r, by omega⟩ < piv ⟨r + 1, hr⟩ := h.mono (Fin.mk_lt_mk.mpr (by omega))
        have h3 : (piv ⟨r, by omega⟩ : ℕ) < piv ⟨r + 1, hr⟩ := h2
        simp only at h1 ⊢
        omega
    have := h.left ⟨i, hi⟩ j (by have := hmono ⟨i, hi⟩; simp only at this; rw [Fin.lt_def]; omega)
    exact this
  · exact h.zero i (by omega) j

/-- The determinant of a square row echelon form with unit pivots. -/
theorem RowEchelon.det {n k : ℕ} {B : Matrix (Fin n) (Fin n) K} {piv : Fin k → Fin n}
    (h : RowEchelon B k piv) : B.det = if k = n then 1 else 0 := by
  split
  · rename_i e
    subst e
    rw [Matrix.det_of_isUpperTriangular (fun i j hij => h.upper i j hij)]
    refine Finset.prod_eq_one fun i _ => ?_
    have := h.one i
    rwa [pivots_all h.mono] at this
  · rename_i e
    have hlt : k < n := lt_of_le_of_ne h.le e
    exact Matrix.det_eq_zero_of_row_eq_zero ⟨k, hlt⟩ fun j => h.zero ⟨k, hlt⟩ le_rfl j

end echelon

variable {F : Type} [RField F] {K : Type} [Field K] [LawfulRField F K] [EpsilonEquality F]
  [StabilityCmp F] [LawfulPivot F K]

/-! ## C110 the inverse -/

/-- C110: the reduced row echelon form of a square matrix is the identity exactly when the matrix is
invertible, which is when `rank()` is the number of rows, and then `p` is its inverse. -/
theorem C110_inverse {n : ℕ} (M : Mat F) (A : Matrix (Fin n) (Fin n) K) (hM : M.Represents A)
    (hn : n * n < 18446744073709551616) :
    Spec (allowed F) (do let f ← rref M; let r ← f.rank; pure (f, r)) (fun (f, r) =>
      (f.b.Represents (1 : Matrix (Fin n) (Fin n) K) ↔ IsUnit A) ∧ (r = n ↔ IsUnit A) ∧
      (IsUnit A → f.p.Represents A⁻¹)) := by
  refine (rref_spec M A hM hn).bind ?_
  rintro f ⟨b, k, piv, hf, he⟩
  refine (hf.rank he.toEch).bind ?_
  rintro k rfl
  obtain ⟨p, hp, hu, hpa⟩ := hf.p_is
  rw [mat_matExt] at hpa
  have hred := he.reduced
  have hb : f.b.Represents (mat n n b) := hf.b_is.represents fun _ _ => rfl
  have hiff : IsUnit (mat n n b) ↔ IsUnit A := by
    rw [← hpa]
    rw [IsUnit.mul_iff]
    exact ⟨fun h => h.2, fun h => ⟨hu, h⟩⟩
  have hone : IsUnit A → k = n ∧ mat n n b = 1 := by
    intro h
    have hk : k = n := hred.toRowEchelon.rank_full (row_ne_zero_of_isUnit (hiff.mpr h))
    refine ⟨hk, ?_⟩
    subst hk
    exact hred.eq_one
  refine ⟨⟨fun h => ?_, fun h => (hone h).2 ▸ hb⟩, ⟨fun h => ?_, fun h => (hone h).1⟩, fun h => ?_⟩
  · rw [← hiff, hb.unique h]; exact isUnit_one
  · subst h
    rw [← hiff, hred.eq_one]; exact isUnit_one
  · have h1 := (hone h).2
    rw [h1] at hpa
    rw [Matrix.inv_eq_left_inv hpa]
    exact hp.represents fun _ _ => rfl

/-- C110, solving: whatever `b`, the solutions of `A x = y` are those of `b x = p y`; they are read off
the pivots.  In particular the system is solvable exactly when `p y` vanishes in the rows from `rank()` on. -/
theorem C110_solve {n m : ℕ} (M : Mat F) (A : Matrix (Fin n) (Fin m) K) (hM : M.Represents A)
    (hn : n * n < 18446744073709551616) (y : Fin n → K) :
    Spec (allowed F) (do let f ← rref M; let r ← f.rank; pure (f, r)) (fun (f, r) =>
      ∃ (P : Matrix (Fin n) (Fin n) K) (B : Matrix (Fin n) (Fin m) K),
      f.p.Represents P ∧ f.b.Represents B ∧ (∀ x, A.mulVec x = y ↔ B.mulVec x = P.mulVec y) ∧
      ((∃ x, A.mulVec x = y) ↔ ∀ i : Fin n, r ≤ i → P.mulVec y i = 0)) := by
  refine (rref_spec M A hM hn).bind ?_
  rintro f ⟨b, k, piv, hf, he⟩
  refine (hf.rank he.toEch).bind ?_
  rintro k rfl
  obtain ⟨p, hp, hu, hpa⟩ := hf.p_is
  rw [mat_matExt] at hpa
  have hred := he.reduced
  have hsol : ∀ x, A.mulVec x = y ↔ (mat n m b).mulVec x = (mat n n p).mulVec y := by
    intro x
    rw [← hpa, ← Matrix.mulVec_mulVec]
    refine ⟨fun h => by rw [h], fun h => ?_⟩
    exact Matrix.mulVec_injective_of_isUnit hu h
  refine ⟨mat n n p, mat n m b, hp.represents fun _ _ => rfl, hf.b_is.represents fun _ _ => rfl, hsol, ?_⟩
  simp only [hsol]
  generalize (mat n n p).mulVec y = z
  constructor
  · rintro ⟨x, rfl⟩ i hi
    rw [Matrix.mulVec, show (mat n m b) i = 0 from funext fun j => hred.zero i hi j, zero_dotProduct]
  · intro hz
    classical
    refine ⟨fun j => ∑ r : Fin k, if (⟨piv r, he.toEch.lt r r.2⟩ : Fin m) = j then z (r.castLE hred.le) else 0, ?_⟩
    funext i
    rw [Matrix.mulVec, dotProduct]
    simp only [Finset.mul_sum, mul_ite, mul_zero]
    rw [Finset.sum_comm]
    simp only [Finset.sum_ite_eq, Finset.mem_univ, if_true]
    by_cases hi : (i : ℕ) < k
    · rw [Finset.sum_eq_single (⟨i, hi⟩ : Fin k)]
      · have := hred.one ⟨i, hi⟩
        simp only [Fin.castLE_mk] at this ⊢
        rw [this, one_mul]
      · intro r _ hr
        have := hred.unit r i (fun e => hr (Fin.ext (congrArg Fin.val e).symm))
        rw [this, zero_mul]
      · simp
    · rw [hz i (by omega)]
      refine Finset.sum_eq_zero fun r _ => ?_
      rw [hred.zero i (by omega), zero_mul]

/-! ## C111 the determinant -/

/-- C111: `lu` gives the determinant: it is zero if the last row of `u` is zero, and otherwise the sign
of the permutation times the product of the diagonal of `l`. -/
theorem C111_det {n : ℕ} (M : Mat F) (A : Matrix (Fin n) (Fin n) K) (hM : M.Represents A)
    (hn : n * n < 18446744073709551616) :
    Spec (allowed F) M.lu (fun d => ∃ (σ : Equiv.Perm (Fin n))
      (L U : Matrix (Fin n) (Fin n) K),
      d.p.Represents (σ.permMatrix K) ∧ d.l.Represents L ∧ d.u.Represents U ∧
      A.det = (Equiv.Perm.sign σ : ℤ) * (∏ i, L i i) * ∏ i, U i i ∧
      (∏ i, L i i) ≠ 0 ∧
      ((∀ i, U i i = 1) ∧ A.det = (Equiv.Perm.sign σ : ℤ) * ∏ i, L i i ∨
        (∃ i : Fin n, (i : ℕ) + 1 = n ∧ U i = 0) ∧ A.det = 0)) := by
  refine (lu_spec M A hM hn).imp ?_
  rintro d ⟨σ, L, U, hp, hl, hu, he, hlow, hL, k, piv, hech⟩
  have hdl : L.det = ∏ i, L i i := Matrix.det_of_isLowerTriangular L fun i j hij => hlow i j hij
  have hdu : U.det = ∏ i, U i i := Matrix.det_of_isUpperTriangular fun i j hij => hech.upper i j hij
  have hsq : ((Equiv.Perm.sign σ : ℤ) : K) * ((Equiv.Perm.sign σ : ℤ) : K) = 1 := by
    rw [← Int.cast_mul, ← Units.val_mul, Int.units_mul_self]; simp
  have hdet := congrArg Matrix.det he
  rw [Matrix.det_mul, Matrix.det_mul, Matrix.det_permutation] at hdet
  have hA : A.det = (Equiv.Perm.sign σ : ℤ) * L.det * U.det := by
    rw [mul_assoc, ← hdet, ← mul_assoc, hsq, one_mul]
  have hne : L.det ≠ 0 := ((Matrix.isUnit_iff_isUnit_det L).mp hL).ne_zero
  refine ⟨σ, L, U, hp, hl, hu, by rw [hA, hdl, hdu], hdl ▸ hne, ?_⟩
  by_cases hk : k = n
  · left
    subst hk
    refine ⟨fun i => ?_, by rw [hA, hech.det, if_pos rfl, mul_one, hdl]⟩
    have := hech.one i
    rwa [pivots_all hech.mono] at this
  · right
    have hlt : k < n := lt_of_le_of_ne hech.le hk
    refine ⟨⟨⟨n - 1, by omega⟩, by simp only; omega, funext fun j => hech.zero _ (by simp only; omega) j⟩, ?_⟩
    rw [hA, hech.det, if_neg hk, mul_zero]

/-! ## C112 the kernel vectors -/

theorem kv_after {n m k : ℕ} {b : ℕ → ℕ → K} {piv : ℕ → ℕ} (h : Ech n m k piv b) {c j : ℕ} (hcj : c < j) :
    kv b k piv c j = 0 := by
  rw [kv, if_neg (by omega), Finset.sum_eq_zero, sub_zero]
  intro r hr
  split
  · rename_i e
    exact h.left r (Finset.mem_range.mp hr) c (by omega)
  · rfl

omit [RField F] [LawfulRField F K] [EpsilonEquality F] [StabilityCmp F] [LawfulPivot F K] in
/-- The columns without a pivot are the linear combinations of the columns before them. -/
theorem free_iff {n m k : ℕ} {b : ℕ → ℕ → K} {piv : ℕ → ℕ} (he : REch n m k piv b)
    {A : Matrix (Fin n) (Fin m) K} {P : Matrix (Fin n) (Fin n) K} (hu : IsUnit P)
    (hpa : P * A = mat n m b) (j : Fin m) :
    (∀ r, r < k → piv r ≠ j) ↔ A.col j ∈ Submodule.span K (A.col '' {l | l < j}) := by
  obtain ⟨h1, h2⟩ := he.kernel_basis
  have hker : LinearMap.ker (mat n m b).mulVecLin = LinearMap.ker A.mulVecLin := by
    ext x
    rw [LinearMap.mem_ker, LinearMap.mem_ker, Matrix.mulVecLin_apply, Matrix.mulVecLin_apply, ← hpa,
      mulVec_unit hu]
  rw [hker] at h2
  have hfree : ∀ q : Fin (freeCols m k piv).length, (freeCols m k piv).get q < m ∧
      ∀ r, r < k → piv r ≠ (freeCols m k piv).get q := fun q => mem_freeCols.mp (List.get_mem _ q)
  have hinj := List.nodup_iff_injective_get.mp (freeCols_nodup m k piv)
  constructor
  · intro hj
    obtain ⟨q, hq⟩ := List.get_of_mem (mem_freeCols.mpr ⟨j.2, hj⟩)
    have h0 : (fun l : Fin m => kv b k piv j l) ∈ LinearMap.ker A.mulVecLin :=
      h2 ▸ Submodule.subset_span ⟨q, by rw [← hq]⟩
    rw [LinearMap.mem_ker, Matrix.mulVecLin_apply, Matrix.mulVec_eq_sum] at h0
    simp only [op_smul_eq_smul] at h0
    rw [← Finset.add_sum_erase _ _ (Finset.mem_univ j), kv_free hj, if_pos rfl, one_smul] at h0
    rw [show A.col j = _ from eq_neg_of_add_eq_zero_left h0]
    refine neg_mem (sum_mem fun l hl' => ?_)
    rw [Finset.mem_erase] at hl'
    rcases lt_trichotomy l j with h | h | h
    · exact Submodule.smul_mem _ _ (Submodule.subset_span ⟨l, h, rfl⟩)
    · exact absurd h hl'.1
    · rw [kv_after he.toEch h, zero_smul]
      exact zero_mem _
  · intro hj
    by_contra hne
    rw [Finsupp.mem_span_image_iff_linearCombination] at hj
    obtain ⟨w, hw, hwj⟩ := hj
    have hwz : ∀ l, ¬ l < j → w l = 0 := fun l hl' =>
      Finsupp.notMem_support_iff.mp fun hl => hl' (hw hl)
    obtain ⟨x, hxdef⟩ : ∃ x : Fin m → K, x = Pi.single j 1 - (w : Fin m → K) := ⟨_, rfl⟩
    have hx : x ∈ LinearMap.ker A.mulVecLin := by
      rw [hxdef, LinearMap.mem_ker, map_sub, Matrix.mulVecLin_apply, Matrix.mulVecLin_apply,
        Matrix.mulVec_single_one, sub_eq_zero, ← hwj, Finsupp.linearCombination_apply,
        Finsupp.sum_fintype _ _ (by simp), Matrix.mulVec_eq_sum]
      simp only [op_smul_eq_smul]
      rfl
    rw [← h2, Submodule.mem_span_range_iff_exists_fun] at hx
    obtain ⟨a, ha⟩ := hx
    have hco : ∀ l : Fin m, ∑ q, a q * kv b k piv ((freeCols m k piv).get q) l = x l := by
      intro l
      rw [← ha, Finset.sum_apply]
      rfl
    have haq : ∀ q, a q = x ⟨(freeCols m k piv).get q, (hfree q).1⟩ := by
      intro q
      rw [← hco, Finset.sum_eq_single q]
      · simp only; rw [kv_free (hfree q).2, if_pos rfl, mul_one]
      · intro q' _ hq'
        simp only; rw [kv_free (hfree q).2, if_neg fun e => hq' (hinj e.symm), mul_zero]
      · simp
    have hj' := hco j
    rw [Finset.sum_eq_zero] at hj'
    · simp [hxdef, hwz j (lt_irrefl j)] at hj'
    · intro q _
      have hnq : (⟨(freeCols m k piv).get q, (hfree q).1⟩ : Fin m) ≠ j := fun e =>
        hne (by rw [← e]; exact (hfree q).2)
      rcases lt_or_gt_of_ne hnq with h | h
      · rw [kv_after he.toEch h, mul_zero]
      · rw [haq, hxdef, Pi.sub_apply, Pi.single_eq_of_ne hnq, hwz _ (not_lt.mpr h.le), sub_zero, zero_mul]

/-- The form of the kernel vectors, for one computed reduced row echelon form. -/
theorem Form.Is.kernel_form {n m k : ℕ} {f : Form F} {M : Mat F} {A : Matrix (Fin n) (Fin m) K}
    {b : ℕ → ℕ → K} {piv : ℕ → ℕ} (hf : f.Is M n m (matExt A) b) (he : REch n m k piv b) :
    Spec (allowed F) f.computeKernel
      (fun ks => ks.length = m - k ∧ ∃ (c : Fin ks.length → Fin m) (v : Fin ks.length → Fin m → K),
        (∀ i, (ks.get i).RepresentsVec (v i)) ∧ StrictMono c ∧ (∀ i, A.mulVec (v i) = 0) ∧
        (∀ i, v i (c i) = 1) ∧ (∀ i j, i ≠ j → v i (c j) = 0) ∧ (∀ i j, c i < j → v i j = 0) ∧
        ∀ j, (∃ i, c i = j) ↔ A.col j ∈ Submodule.span K (A.col '' {l | l < j})) := by
  refine (hf.computeKernel he.toEch).imp fun ks hks => ?_
  obtain ⟨hl, hv⟩ := forall₂_vecs hks
  obtain ⟨h1, h2⟩ := he.kernel_basis
  obtain ⟨p, _, hu, hpa⟩ := hf.p_is
  rw [mat_matExt] at hpa
  have hker : LinearMap.ker (mat n m b).mulVecLin = LinearMap.ker A.mulVecLin := by
    ext x
    rw [LinearMap.mem_ker, LinearMap.mem_ker, Matrix.mulVecLin_apply, Matrix.mulVecLin_apply, ← hpa,
      mulVec_unit hu]
  rw [hker] at h2
  have hfree : ∀ q : Fin (freeCols m k piv).length, (freeCols m k piv).get q < m ∧
      ∀ r, r < k → piv r ≠ (freeCols m k piv).get q := fun q => mem_freeCols.mp (List.get_mem _ q)
  have hinj := List.nodup_iff_injective_get.mp (freeCols_nodup m k piv)
  have hmono : ∀ q q' : Fin (freeCols m k piv).length, q < q' →
      (freeCols m k piv).get q < (freeCols m k piv).get q' :=
    List.pairwise_iff_get.mp (List.pairwise_lt_range.filter _)
  refine ⟨?_, fun i => ⟨(freeCols m k piv).get (i.cast hl), (hfree _).1⟩, _, hv, ?_, ?_, ?_, ?_, ?_, ?_⟩
  · rw [hl, ← Fintype.card_fin (freeCols m k piv).length, ← finrank_span_eq_card h1, h2, finrank_ker,
      ← rank_of_unit hu, hpa, he.toEch.rank_eq]
  · intro i j hij
    exact hmono _ _ hij
  · intro i
    have : (fun j : Fin m => kv b k piv ((freeCols m k piv).get (i.cast hl)) j) ∈ LinearMap.ker A.mulVecLin :=
      h2 ▸ Submodule.subset_span ⟨i.cast hl, rfl⟩
    exact this
  · intro i
    rw [kv_free (hfree _).2, if_pos rfl]
  · intro i j hij
    rw [kv_free (hfree _).2, if_neg fun e => hij ((finCongr hl).injective (hinj e.symm))]
  · intro i j hij
    exact kv_after he.toEch hij
  · intro j
    rw [← free_iff he hu hpa]
    constructor
    · rintro ⟨i, rfl⟩
      exact (hfree _).2
    · intro hj
      obtain ⟨q, hq⟩ := List.get_of_mem (mem_freeCols.mpr ⟨j.2, hj⟩)
      exact ⟨q.cast hl.symm, Fin.ext hq⟩

/-- C112: `compute_kernel` returns `nullity()` vectors.  There are as many columns `c 0 < c 1 < …`, and
the `i`-th vector has a one at `c i`, zeros at the other `c j`, and zeros after `c i`.  The columns `c i`
are exactly the columns of the matrix that are linear combinations of the columns before them. -/
theorem C112_kernel_form {n m : ℕ} (M : Mat F) (A : Matrix (Fin n) (Fin m) K) (hM : M.Represents A)
    (hn : n * n < 18446744073709551616) :
    Spec (allowed F) (do let f ← rref M; let ks ← f.computeKernel; let k ← f.nullity; pure (ks, k))
      (fun (ks, k) => ks.length = k ∧ ∃ (c : Fin ks.length → Fin m) (v : Fin ks.length → Fin m → K),
        (∀ i, (ks.get i).RepresentsVec (v i)) ∧ StrictMono c ∧ (∀ i, A.mulVec (v i) = 0) ∧
        (∀ i, v i (c i) = 1) ∧ (∀ i j, i ≠ j → v i (c j) = 0) ∧ (∀ i j, c i < j → v i j = 0) ∧
        ∀ j, (∃ i, c i = j) ↔ A.col j ∈ Submodule.span K (A.col '' {l | l < j})) := by
  refine (rref_spec M A hM hn).bind ?_
  rintro f ⟨b, k, piv, hf, he⟩
  refine (hf.kernel_form he).bind fun ks hks => ?_
  refine (hf.nullity he.toEch).bind ?_
  rintro _ rfl
  exact hks

/-- C113: `compute_range` returns `rank()` vectors, and they are exactly the columns of the matrix that
are not linear combinations of the columns before them, each once, in some order. -/
theorem C113_range_form {n m : ℕ} (M : Mat F) (A : Matrix (Fin n) (Fin m) K) (hM : M.Represents A)
    (hn : n * n < 18446744073709551616) (order : List ℕ → List ℕ) (ho : ∀ l, (order l).Perm l) :
    Spec (allowed F) (do let f ← rref M; let rs ← f.computeRange order; let r ← f.rank; pure (rs, r))
      (fun (rs, r) => rs.length = r ∧ ∃ c : Fin rs.length → Fin m, Function.Injective c ∧
        (∀ i, (rs.get i).RepresentsVec fun r => A r (c i)) ∧
        ∀ j, (∃ i, c i = j) ↔ A.col j ∉ Submodule.span K (A.col '' {l | l < j})) := by
  refine (rref_spec M A hM hn).bind ?_
  rintro f ⟨b, k, piv, hf, he⟩
  refine (hf.computeRange hM.is he.toEch ho).bind ?_
  rintro rs ⟨cs, hnd, hcs, hrs⟩
  refine (hf.rank he.toEch).bind ?_
  rintro k rfl
  obtain ⟨hl, hv⟩ := forall₂_vecs (v := fun c i => matExt A i c) hrs
  obtain ⟨p, _, hu, hpa⟩ := hf.p_is
  rw [mat_matExt] at hpa
  have hlt : ∀ q : Fin cs.length, cs.get q < m := fun q => by
    obtain ⟨r, hr, he'⟩ := (hcs _).mp (List.get_mem cs q)
    rw [← he']; exact he.lt r hr
  have hinj := List.nodup_iff_injective_get.mp hnd
  refine ⟨?_, fun i => ⟨cs.get (i.cast hl), hlt _⟩, ?_, ?_, ?_⟩
  · have hperm : cs.Perm ((List.range k).map piv) := by
      refine (List.perm_ext_iff_of_nodup hnd ?_).mpr fun c => ?_
      · exact (List.nodup_range).map_on fun x hx y hy e =>
          he.toEch.piv_inj (List.mem_range.mp hx) (List.mem_range.mp hy) e
      · rw [hcs]; simp
    rw [hl, hperm.length_eq]; simp
  · intro i j e
    exact (finCongr hl).injective (hinj (congrArg Fin.val e))
  · intro i
    have := hv i
    have e : (fun j : Fin n => matExt A j (cs.get (i.cast hl))) =
        fun r => A r ⟨cs.get (i.cast hl), hlt _⟩ := by
      funext r
      exact matExt_fin A r ⟨cs.get (i.cast hl), hlt _⟩
    rwa [e] at this
  · intro j
    rw [← free_iff he hu hpa, not_forall]
    constructor
    · rintro ⟨i, rfl⟩
      obtain ⟨r, hr, he'⟩ := (hcs _).mp (List.get_mem cs (i.cast hl))
      exact ⟨r, fun h => h hr he'⟩
    · rintro ⟨r, hr⟩
      push Not at hr
      obtain ⟨q, hq⟩ := List.get_of_mem ((hcs j).mpr ⟨r, hr⟩)
      exact ⟨q.cast hl.symm, Fin.ext hq⟩

/-! ## Instances -/

section examples
attribute [local instance] Rational.lawful

/-- An invertible matrix and its inverse. -/
example : letI := Rational.field .debug
    letI := Rational.stability .debug
    (∃ A : Matrix (Fin 2) (Fin 2) ℚ, (ratMat 2 2 [2, 1, 5, 3]).Represents A) ∧
    (do let f ← rref (ratMat 2 2 [2, 1, 5, 3]); let r ← f.rank; pure (f.b.entries.map Rational.val, r)) =
      .ok ([1, 0, 0, 1], 2) ∧
    (do let f ← rref (ratMat 2 2 [2, 1, 5, 3]); pure (f.p.entries.map Rational.val)) =
      .ok [3, -1, -5, 2] :=
  ⟨⟨_, ratMat_represents 2 2 _ rfl (by decide) (by decide) (by decide)⟩, by decide +kernel, by decide +kernel⟩

/-- Two free columns, one of them first. -/
example : letI := Rational.field .debug
    letI := Rational.stability .debug
    (do let f ← rref (ratMat 2 4 [0, 1, 2, 0, 0, 0, 0, 1]); let ks ← f.computeKernel; let k ← f.nullity; pure (ks, k)) =
      .ok ([ratMat 4 1 [1, 0, 0, 0], ratMat 4 1 [0, -2, 1, 0]], 2) := by decide +kernel

/-- The determinant `-6` of a matrix whose rows are exchanged. -/
example : letI := Rational.field .debug
    letI := Rational.stability .debug
    (do let d ← (ratMat 2 2 [0, 2, 3, 4]).lu; pure (d.p, d.l)) =
      .ok (ratMat 2 2 [0, 1, 1, 0], ratMat 2 2 [3, 0, 0, 2]) := by decide +kernel

end examples

end Verif
