import Verif.Proofs.Groebner
import Verif.Proofs.Bridge
import Mathlib.LinearAlgebra.Matrix.NonsingularInverse

/-!
# Polynomials of degree at most one

A matrix with `d + 1` columns as a list of such polynomials in `d` variables, the last column being the
constant terms; the nonzero rows of a reduced row echelon form are a reduced Gröbner basis.
-/

namespace Verif
open MvPolynomial
namespace LinearForms

variable {K : Type} [Field K] {d : ℕ} {m : MonomialOrder (Fin d)}

/-- The monomial of a column. -/
noncomputable def col (j : Fin (d + 1)) : Fin d →₀ ℕ :=
  Fin.lastCases (motive := fun _ => Fin d →₀ ℕ) 0 (fun i => Finsupp.single i 1) j

theorem col_last : (col (Fin.last d) : Fin d →₀ ℕ) = 0 := by
  unfold col; rw [Fin.lastCases_last]

theorem col_castSucc (i : Fin d) : col i.castSucc = Finsupp.single i 1 := by
  unfold col; rw [Fin.lastCases_castSucc]

theorem col_injective : Function.Injective (col : Fin (d + 1) → Fin d →₀ ℕ) := by
  intro a b
  refine Fin.lastCases ?_ (fun i => ?_) a <;> refine Fin.lastCases ?_ (fun j => ?_) b
  · exact fun _ => rfl
  · intro h
    rw [col_last, col_castSucc] at h
    exact absurd (Finsupp.single_eq_zero.mp h.symm) one_ne_zero
  · intro h
    rw [col_last, col_castSucc] at h
    exact absurd (Finsupp.single_eq_zero.mp h) one_ne_zero
  · intro h
    rw [col_castSucc, col_castSucc] at h
    rw [Finsupp.single_left_injective one_ne_zero h]

/-- The polynomial of a row. -/
noncomputable def row : (Fin (d + 1) → K) →ₗ[K] MvPolynomial (Fin d) K where
  toFun v := ∑ j, monomial (col j) (v j)
  map_add' v w := by simp [Finset.sum_add_distrib]
  map_smul' c v := by simp [Finset.smul_sum, smul_monomial]

theorem row_apply (v : Fin (d + 1) → K) : row v = ∑ j, monomial (col j) (v j) := rfl

theorem coeff_row (v : Fin (d + 1) → K) (j : Fin (d + 1)) : coeff (col j) (row v) = v j := by
  classical
  rw [row_apply, coeff_sum, Finset.sum_eq_single j]
  · rw [coeff_monomial, if_pos rfl]
  · intro i _ hij
    rw [coeff_monomial, if_neg fun h => hij (col_injective h)]
  · exact fun h => absurd (Finset.mem_univ j) h

theorem support_row {v : Fin (d + 1) → K} {e : Fin d →₀ ℕ} (he : e ∈ (row v).support) :
    ∃ j, e = col j ∧ v j ≠ 0 := by
  classical
  obtain ⟨j, -, hj⟩ := Finset.mem_biUnion.mp (support_sum he)
  have hj' : e = col j := by simpa using support_monomial_subset hj
  refine ⟨j, hj', ?_⟩
  rw [mem_support_iff, hj', coeff_row] at he
  exact he

/-- A polynomial with no monomials but those of the columns is a row. -/
theorem row_coeff {f : MvPolynomial (Fin d) K} (h : ∀ e ∈ f.support, ∃ j, e = col j) :
    row (fun j => coeff (col j) f) = f := by
  ext e
  by_cases he : ∃ j, e = col j
  · obtain ⟨j, rfl⟩ := he
    rw [coeff_row]
  · have h1 : e ∉ f.support := fun hf => he (h e hf)
    have h2 : e ∉ (row fun j => coeff (col j) f).support := fun hf => he (by
      obtain ⟨j, hj, -⟩ := support_row hf
      exact ⟨j, hj⟩)
    rw [notMem_support_iff.mp h1, notMem_support_iff.mp h2]

/-- The variables in descending order. -/
def VarsDescend (m : MonomialOrder (Fin d)) : Prop :=
  ∀ i j : Fin d, i < j → m.toSyn (Finsupp.single j 1) < m.toSyn (Finsupp.single i 1)

theorem col_lt (hm : VarsDescend m) {i j : Fin (d + 1)} (h : i < j) :
    m.toSyn (col j) < m.toSyn (col i) := by
  revert h
  refine Fin.lastCases ?_ (fun i => ?_) i <;> refine Fin.lastCases ?_ (fun j => ?_) j
  · exact fun h => absurd h (lt_irrefl _)
  · exact fun h => absurd h (not_lt.mpr (Fin.le_last _))
  · intro _
    rw [col_last, col_castSucc, map_zero, m.toSyn_lt_iff_ne_zero]
    exact fun h => one_ne_zero (Finsupp.single_eq_zero.mp (m.toSyn.map_eq_zero_iff.mp h))
  · intro h
    rw [col_castSucc, col_castSucc]
    exact hm i j h

variable {n k : ℕ} {B : Matrix (Fin n) (Fin (d + 1)) K} {piv : Fin k → Fin (d + 1)}
open LinAlg

/-- The nonzero rows. -/
noncomputable def pivRow (hB : ReducedRowEchelon B k piv) (r : Fin k) : MvPolynomial (Fin d) K :=
  row (B (r.castLE hB.le))

theorem pivRow_degree (hm : VarsDescend m) (hB : ReducedRowEchelon B k piv) (r : Fin k) :
    m.degree (pivRow hB r) = col (piv r) ∧ m.leadingCoeff (pivRow hB r) = 1 := by
  have hmem : col (piv r) ∈ (pivRow hB r).support := by
    rw [mem_support_iff, pivRow, coeff_row, hB.one]
    exact one_ne_zero
  have hd : m.degree (pivRow hB r) = col (piv r) := by
    apply m.toSyn.injective
    apply le_antisymm
    · rw [m.degree_le_iff]
      intro e he
      obtain ⟨j, rfl, hj⟩ := support_row he
      rcases lt_trichotomy j (piv r) with h | h | h
      · exact absurd (hB.left r j h) hj
      · rw [h]
      · exact (col_lt hm h).le
    · exact m.le_degree hmem
  refine ⟨hd, ?_⟩
  rw [MonomialOrder.leadingCoeff, hd, pivRow, coeff_row, hB.one]

/-- Pivot variables replaced by what the rows say. -/
noncomputable def solveVar (hB : ReducedRowEchelon B k piv) (i : Fin d) : MvPolynomial (Fin d) K :=
  X i - ∑ r, if piv r = i.castSucc then pivRow hB r else 0

noncomputable def solve (hB : ReducedRowEchelon B k piv) :
    MvPolynomial (Fin d) K →ₐ[K] MvPolynomial (Fin d) K := aeval (solveVar hB)

theorem solveVar_pivot (hB : ReducedRowEchelon B k piv) {r : Fin k} {i : Fin d}
    (h : piv r = i.castSucc) : solveVar hB i = X i - pivRow hB r := by
  unfold solveVar
  rw [Finset.sum_eq_single r, if_pos h]
  · intro s _ hs
    exact if_neg fun h' => hs (hB.mono.injective (h'.trans h.symm))
  · exact fun h => absurd (Finset.mem_univ r) h

theorem solveVar_free (hB : ReducedRowEchelon B k piv) {i : Fin d} (h : ∀ r, piv r ≠ i.castSucc) :
    solveVar hB i = X i := by
  unfold solveVar
  rw [Finset.sum_eq_zero fun r _ => if_neg (h r), sub_zero]

theorem solve_col_free (hB : ReducedRowEchelon B k piv) {j : Fin (d + 1)} (h : ∀ r, piv r ≠ j) :
    solve hB (monomial (col j) 1) = monomial (col j) 1 := by
  revert h
  refine Fin.lastCases (fun _ => ?_) (fun i h => ?_) j
  · rw [col_last]
    exact map_one (solve hB)
  · rw [col_castSucc]
    change solve hB (X i) = X i
    unfold solve
    rw [aeval_X, solveVar_free hB h]

theorem solve_pivRow (hB : ReducedRowEchelon B k piv) (hl : ∀ r, piv r ≠ Fin.last d) (r : Fin k) :
    solve hB (pivRow hB r) = 0 := by
  obtain ⟨i, hi⟩ := Fin.exists_castSucc_eq.mpr (hl r)
  have hterm : ∀ (p : MvPolynomial (Fin d) K →ₗ[K] MvPolynomial (Fin d) K), p (pivRow hB r) =
      p (X i) + ∑ j ∈ Finset.univ.erase (piv r), B (r.castLE hB.le) j • p (monomial (col j) 1) := by
    intro p
    rw [pivRow, row_apply, ← Finset.add_sum_erase _ _ (Finset.mem_univ (piv r)), map_add, map_sum, hB.one]
    congr 1
    · rw [← hi, col_castSucc]; rfl
    · refine Finset.sum_congr rfl fun j _ => ?_
      rw [← map_smul, smul_monomial, smul_eq_mul, mul_one]
  have h1 := hterm (solve hB).toLinearMap
  have h2 := hterm LinearMap.id
  simp only [LinearMap.id_apply] at h2
  have h3 : ∀ j ∈ Finset.univ.erase (piv r),
      B (r.castLE hB.le) j • (solve hB).toLinearMap (monomial (col j) (1 : K)) =
        B (r.castLE hB.le) j • monomial (col j) 1 := by
    intro j hj
    by_cases hp : ∃ s, piv s = j
    · obtain ⟨s, rfl⟩ := hp
      have hne : r.castLE hB.le ≠ s.castLE hB.le := fun h => by
        have : r = s := Fin.ext (by simpa using congrArg Fin.val h)
        rw [this] at hj
        exact Finset.notMem_erase _ _ hj
      rw [hB.unit s _ hne, zero_smul, zero_smul]
    · push Not at hp
      rw [AlgHom.toLinearMap_apply, solve_col_free hB hp]
  rw [Finset.sum_congr rfl h3] at h1
  change solve hB (pivRow hB r) = solve hB (X i) + _ at h1
  have h4 : solve hB (X i) = X i - pivRow hB r := by
    unfold solve
    rw [aeval_X, solveVar_pivot hB hi.symm]
  rw [h1, h4, h2]
  ring

theorem degree_solveVar (hm : VarsDescend m) (hB : ReducedRowEchelon B k piv) (i : Fin d) :
    m.toSyn (m.degree (solveVar hB i)) ≤ m.toSyn (Finsupp.single i 1) := by
  by_cases h : ∃ r, piv r = i.castSucc
  · obtain ⟨r, hr⟩ := h
    rw [solveVar_pivot hB hr]
    refine m.degree_sub_le.trans (sup_le m.degree_X_le_single ?_)
    rw [(pivRow_degree hm hB r).1, hr, col_castSucc]
  · push Not at h
    rw [solveVar_free hB h]
    exact m.degree_X_le_single

theorem degree_solve_monomial (hm : VarsDescend m) (hB : ReducedRowEchelon B k piv)
    (e : Fin d →₀ ℕ) (c : K) :
    m.toSyn (m.degree (solve hB (monomial e c))) ≤ m.toSyn e := by
  unfold solve
  rw [aeval_monomial, Finsupp.prod]
  refine m.degree_mul_le.trans ?_
  have h1 : m.degree ((algebraMap K (MvPolynomial (Fin d) K)) c) = 0 := m.degree_C c
  rw [h1, zero_add]
  refine m.degree_prod_le.trans ?_
  have h2 : e = ∑ i ∈ e.support, e i • Finsupp.single i 1 := by
    conv_lhs => rw [← Finsupp.sum_single e, Finsupp.sum]
    exact Finset.sum_congr rfl fun i _ => by rw [Finsupp.smul_single, smul_eq_mul, mul_one]
  conv_rhs => rw [h2]
  rw [map_sum, map_sum]
  refine Finset.sum_le_sum fun i _ => (m.degree_pow_le _).trans ?_
  rw [map_nsmul, map_nsmul]
  exact nsmul_le_nsmul_right (degree_solveVar hm hB i) _

theorem solve_free (hB : ReducedRowEchelon B k piv) {e : Fin d →₀ ℕ}
    (h : ∀ r, ¬ col (piv r) ≤ e) : solve hB (monomial e (1 : K)) = monomial e 1 := by
  unfold solve
  rw [aeval_monomial, map_one, one_mul, monomial_eq, C_1, one_mul]
  refine Finset.prod_congr rfl fun i hi => ?_
  change solveVar hB i ^ e i = X i ^ e i
  rw [solveVar_free]
  intro r hr
  refine h r ?_
  rw [hr, col_castSucc, Finsupp.single_le_iff]
  exact Nat.one_le_iff_ne_zero.mpr (Finsupp.mem_support_iff.mp hi)

/-- The nonzero rows of a reduced row echelon form without pivot in the last column are a Gröbner
basis. -/
theorem groebner (hm : VarsDescend m) (hB : ReducedRowEchelon B k piv)
    (hl : ∀ r, piv r ≠ Fin.last d) :
    IsGroebner m (Ideal.span (Set.range (pivRow hB))) (Set.range (pivRow hB)) := by
  classical
  refine ⟨Ideal.subset_span, fun f hf hf0 => ?_⟩
  by_contra hno
  have hfree : ∀ r, ¬ col (piv r) ≤ m.degree f := by
    intro r hle
    obtain ⟨hd, hlc⟩ := pivRow_degree hm hB r
    refine hno ⟨_, ⟨r, rfl⟩, fun h0 => ?_, by rw [hd]; exact hle⟩
    rw [h0, MonomialOrder.leadingCoeff_zero] at hlc
    exact zero_ne_one hlc
  have hz : solve hB f = 0 := by
    have : Ideal.span (Set.range (pivRow hB)) ≤ RingHom.ker (solve hB) := by
      rw [Ideal.span_le]
      rintro _ ⟨r, rfl⟩
      exact solve_pivRow hB hl r
    exact this hf
  have hc : coeff (m.degree f) (solve hB f) = m.leadingCoeff f := by
    have hs : solve hB f = ∑ e ∈ f.support, solve hB (monomial e (coeff e f)) := by
      conv_lhs => rw [f.as_sum, map_sum]
    rw [hs, coeff_sum, Finset.sum_eq_single (m.degree f)]
    · have : (monomial (m.degree f) (coeff (m.degree f) f) : MvPolynomial (Fin d) K) =
          coeff (m.degree f) f • monomial (m.degree f) 1 := by
        rw [smul_monomial, smul_eq_mul, mul_one]
      rw [this, map_smul, solve_free hB hfree, coeff_smul, coeff_monomial, if_pos rfl, smul_eq_mul,
        mul_one]
      rfl
    · intro e he hne
      apply m.coeff_eq_zero_of_lt
      refine (degree_solve_monomial hm hB e _).trans_lt ?_
      exact lt_of_le_of_ne (m.le_degree he) fun h => hne (m.toSyn.injective h)
    · exact fun h => absurd (m.degree_mem_support hf0) h
  rw [hz, coeff_zero] at hc
  exact m.leadingCoeff_ne_zero_iff.mpr hf0 hc.symm

theorem interReduced (hm : VarsDescend m) (hB : ReducedRowEchelon B k piv)
    (hl : ∀ r, piv r ≠ Fin.last d) : IsInterReduced m (Set.range (pivRow hB)) := by
  rintro _ ⟨r, rfl⟩ _ ⟨s, rfl⟩ hne e he hle
  rw [(pivRow_degree hm hB s).1] at hle
  obtain ⟨j, rfl, hj⟩ := support_row he
  have hjs : piv s = j := by
    obtain ⟨i, hi⟩ := Fin.exists_castSucc_eq.mpr (hl s)
    rw [← hi, col_castSucc, Finsupp.single_le_iff] at hle
    rw [← hi]
    revert hle
    refine Fin.lastCases (fun h => ?_) (fun i' h => ?_) j
    · rw [col_last] at h
      exact absurd h (by simp)
    · rw [col_castSucc, Finsupp.single_apply] at h
      split at h
      · rename_i e; rw [e]
      · omega
  refine hj ?_
  rw [← hjs]
  refine hB.unit s _ fun h => hne ?_
  have : r = s := Fin.ext (by simpa using congrArg Fin.val h)
  rw [this]

/-- Row operations do not change the ideal. -/
theorem span_mul_le (P : Matrix (Fin n) (Fin n) K) (A : Matrix (Fin n) (Fin (d + 1)) K) :
    Ideal.span (Set.range fun i => row ((P * A) i)) ≤ Ideal.span (Set.range fun i => row (A i)) := by
  rw [Ideal.span_le]
  rintro _ ⟨i, rfl⟩
  have e : (P * A) i = ∑ t, P i t • A t := by
    funext j
    rw [Matrix.mul_apply, Finset.sum_apply]
    rfl
  change row ((P * A) i) ∈ _
  rw [e, map_sum]
  refine Ideal.sum_mem _ fun t _ => ?_
  rw [map_smul, Algebra.smul_def]
  exact Ideal.mul_mem_left _ _ (Ideal.subset_span ⟨t, rfl⟩)

theorem span_rows {P : Matrix (Fin n) (Fin n) K} {A : Matrix (Fin n) (Fin (d + 1)) K} (hP : IsUnit P)
    (hPA : P * A = B) (hB : ReducedRowEchelon B k piv) :
    Ideal.span (Set.range (pivRow hB)) = Ideal.span (Set.range fun i => row (A i)) := by
  have h1 : Ideal.span (Set.range fun i => row (A i)) = Ideal.span (Set.range fun i => row (B i)) := by
    apply le_antisymm
    · have e : A = P⁻¹ * B := by
        rw [← hPA, ← Matrix.mul_assoc, Matrix.nonsing_inv_mul P ((Matrix.isUnit_iff_isUnit_det P).mp hP),
          Matrix.one_mul]
      have := span_mul_le P⁻¹ B
      rwa [← e] at this
    · rw [← hPA]
      exact span_mul_le P A
  rw [h1]
  apply le_antisymm
  · apply Ideal.span_mono
    rintro _ ⟨r, rfl⟩
    exact ⟨r.castLE hB.le, rfl⟩
  · rw [Ideal.span_le]
    rintro _ ⟨i, rfl⟩
    by_cases hi : k ≤ i.val
    · have : B i = 0 := funext fun j => hB.zero i hi j
      change row (B i) ∈ _
      rw [this, map_zero]
      exact Ideal.zero_mem _
    · exact Ideal.subset_span ⟨⟨i.val, by omega⟩, rfl⟩

end LinearForms
end Verif
