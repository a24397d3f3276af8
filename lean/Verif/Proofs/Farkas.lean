import Mathlib.LinearAlgebra.Matrix.DotProduct
import Mathlib.LinearAlgebra.Matrix.Dual
import Mathlib.LinearAlgebra.Dual.Lemmas
import Mathlib.LinearAlgebra.FiniteDimensional.Basic
import Mathlib.Tactic.Linarith
import Mathlib.Tactic.FieldSimp

/-!
# Farkas' lemma and the fundamental theorem of linear inequalities

For finitely many vectors over a linearly ordered field.
-/

namespace Verif

variable {K : Type} [Field K] [LinearOrder K] [IsStrictOrderedRing K] {m : ℕ}

/-- Farkas' lemma: a vector on the nonnegative side of every hyperplane that has all `v i` on its
nonnegative side is a nonnegative combination of the `v i`. -/
theorem farkas {n : ℕ} (v : Fin n → Fin m → K) (b : Fin m → K)
    (h : ∀ x, (∀ i, 0 ≤ v i ⬝ᵥ x) → 0 ≤ b ⬝ᵥ x) :
    ∃ u : Fin n → K, (∀ i, 0 ≤ u i) ∧ b = ∑ i, u i • v i := by
  induction n generalizing b with
  | zero =>
    refine ⟨0, fun i => i.elim0, ?_⟩
    have h1 := h (-b) fun i => i.elim0
    rw [dotProduct_neg] at h1
    have h2 : 0 ≤ b ⬝ᵥ b := Finset.sum_nonneg fun i _ => mul_self_nonneg _
    simp only [Finset.univ_eq_empty, Finset.sum_empty]
    exact dotProduct_self_eq_zero.mp (le_antisymm (by linarith) h2)
  | succ n ih =>
    by_cases hc : ∀ x, (∀ i : Fin n, 0 ≤ v i.castSucc ⬝ᵥ x) → 0 ≤ b ⬝ᵥ x
    · obtain ⟨u, hu, hb⟩ := ih (fun i => v i.castSucc) b hc
      refine ⟨Fin.snoc u 0, fun i => ?_, ?_⟩
      · refine Fin.lastCases ?_ (fun i => ?_) i
        · rw [Fin.snoc_last]
        · rw [Fin.snoc_castSucc]; exact hu i
      · rw [Fin.sum_univ_castSucc]
        simp only [Fin.snoc_castSucc, Fin.snoc_last, zero_smul, add_zero]
        exact hb
    · push Not at hc
      obtain ⟨y, hy, hby⟩ := hc
      have hlast : v (Fin.last n) ⬝ᵥ y < 0 := by
        by_contra hge
        refine absurd (h y fun i => ?_) (not_le.mpr hby)
        refine Fin.lastCases ?_ (fun i => ?_) i
        · exact not_lt.mp hge
        · exact hy i
      obtain ⟨z, hz, hzl, hbz⟩ : ∃ z : Fin m → K, (∀ i : Fin n, 0 ≤ v i.castSucc ⬝ᵥ z) ∧
          v (Fin.last n) ⬝ᵥ z = -1 ∧ b ⬝ᵥ z < 0 := by
        have hpos : 0 < (-(v (Fin.last n) ⬝ᵥ y))⁻¹ := inv_pos.mpr (by linarith)
        refine ⟨(-(v (Fin.last n) ⬝ᵥ y))⁻¹ • y, fun i => ?_, ?_, ?_⟩
        · rw [dotProduct_smul, smul_eq_mul]; exact mul_nonneg hpos.le (hy i)
        · rw [dotProduct_smul, smul_eq_mul, inv_neg, neg_mul, inv_mul_cancel₀ hlast.ne]
        · rw [dotProduct_smul, smul_eq_mul]; exact mul_neg_of_pos_of_neg hpos hby
      obtain ⟨u, hu, hb⟩ := ih (fun i => v i.castSucc + (v i.castSucc ⬝ᵥ z) • v (Fin.last n))
        (b + (b ⬝ᵥ z) • v (Fin.last n)) (by
          intro x hx
          have := h (x + (v (Fin.last n) ⬝ᵥ x) • z) (by
            intro i
            refine Fin.lastCases ?_ (fun i => ?_) i
            · rw [dotProduct_add, dotProduct_smul, hzl, smul_eq_mul]; linarith
            · have := hx i
              rw [add_dotProduct, smul_dotProduct, smul_eq_mul] at this
              rw [dotProduct_add, dotProduct_smul, smul_eq_mul]
              linarith)
          rw [dotProduct_add, dotProduct_smul, smul_eq_mul] at this
          rw [add_dotProduct, smul_dotProduct, smul_eq_mul]
          linarith)
      refine ⟨Fin.snoc u (-(b ⬝ᵥ z) + ∑ i, u i * (v i.castSucc ⬝ᵥ z)), fun i => ?_, ?_⟩
      · refine Fin.lastCases ?_ (fun i => ?_) i
        · rw [Fin.snoc_last]
          exact add_nonneg (by linarith) (Finset.sum_nonneg fun i _ => mul_nonneg (hu i) (hz i))
        · rw [Fin.snoc_castSucc]; exact hu i
      · rw [Fin.sum_univ_castSucc]
        simp only [Fin.snoc_castSucc, Fin.snoc_last]
        have : b = ∑ i, u i • (v i.castSucc + (v i.castSucc ⬝ᵥ z) • v (Fin.last n)) -
            (b ⬝ᵥ z) • v (Fin.last n) := by rw [← hb]; simp
        conv_lhs => rw [this]
        simp only [smul_add, Finset.sum_add_distrib, smul_smul, add_smul, Finset.sum_smul, neg_smul]
        abel

omit [LinearOrder K] [IsStrictOrderedRing K] in
/-- A nonzero vector orthogonal to a proper subspace. -/
theorem exists_orthogonal (S : Submodule K (Fin m → K)) (hS : Module.finrank K S < m) :
    ∃ y : Fin m → K, y ≠ 0 ∧ ∀ s ∈ S, s ⬝ᵥ y = 0 := by
  have hlt : S < ⊤ := by
    rw [lt_top_iff_ne_top]
    rintro rfl
    rw [finrank_top, Module.finrank_fin_fun] at hS
    exact lt_irrefl _ hS
  obtain ⟨f, hf, hker⟩ := Submodule.exists_le_ker_of_lt_top S hlt
  refine ⟨(dotProductEquiv K (Fin m)).symm f, by simpa using hf, fun s hs => ?_⟩
  have h1 : f s = 0 := hker hs
  rw [dotProduct_comm]
  conv at h1 => lhs; rw [← (dotProductEquiv K (Fin m)).apply_symm_apply f]
  simpa [dotProductEquiv] using h1

variable {ι : Type} [Finite ι]

/-- The span of the vectors on the hyperplane orthogonal to `x`. -/
def tight (v : ι → Fin m → K) (x : Fin m → K) : Submodule K (Fin m → K) :=
  Submodule.span K (v '' {i | v i ⬝ᵥ x = 0})

omit [LinearOrder K] [IsStrictOrderedRing K] [Finite ι] in
theorem tight_orthogonal (v : ι → Fin m → K) (x : Fin m → K) {s : Fin m → K} (hs : s ∈ tight v x) :
    s ⬝ᵥ x = 0 := by
  unfold tight at hs
  induction hs using Submodule.span_induction with
  | mem s hs => obtain ⟨i, hi, rfl⟩ := hs; exact hi
  | zero => exact zero_dotProduct _
  | add s t _ _ hs ht => rw [add_dotProduct, hs, ht, add_zero]
  | smul a s _ hs => rw [smul_dotProduct, hs, smul_zero]

/-- One step: turn the hyperplane about the vectors on it, keeping its value at `b`, until it meets
another vector. -/
theorem tight_step (v : ι → Fin m → K) (hv : Submodule.span K (Set.range v) = ⊤) (b x : Fin m → K)
    (hx : ∀ i, 0 ≤ v i ⬝ᵥ x) (hb : b ⬝ᵥ x < 0) (hr : Module.finrank K (tight v x) + 1 < m) :
    ∃ x', (∀ i, 0 ≤ v i ⬝ᵥ x') ∧ b ⬝ᵥ x' < 0 ∧
      Module.finrank K (tight v x) < Module.finrank K (tight v x') := by
  obtain ⟨y, hy, hyo⟩ := exists_orthogonal (tight v x ⊔ Submodule.span K {b}) (by
    have h1 := Submodule.finrank_add_le_finrank_add_finrank (tight v x) (Submodule.span K {b})
    have h2 : Module.finrank K (Submodule.span K {b}) ≤ 1 := by
      have := finrank_span_le_card (R := K) ({b} : Set (Fin m → K))
      simpa using this
    omega)
  have hyt : ∀ s ∈ tight v x, s ⬝ᵥ y = 0 := fun s hs => hyo s (Submodule.mem_sup_left hs)
  have hyb : b ⬝ᵥ y = 0 := hyo b (Submodule.mem_sup_right (Submodule.mem_span_singleton_self b))
  have hex : ∃ i, v i ⬝ᵥ y ≠ 0 := by
    by_contra hall
    push Not at hall
    have : y ∈ Submodule.span K (Set.range v) := hv ▸ Submodule.mem_top
    apply hy
    have hz : ∀ s ∈ Submodule.span K (Set.range v), s ⬝ᵥ y = 0 := by
      intro s hs
      induction hs using Submodule.span_induction with
      | mem s hs => obtain ⟨i, rfl⟩ := hs; exact hall i
      | zero => exact zero_dotProduct _
      | add s t _ _ hs ht => rw [add_dotProduct, hs, ht, add_zero]
      | smul a s _ hs => rw [smul_dotProduct, hs, smul_zero]
    exact dotProduct_self_eq_zero.mp (hz y this)
  -- choose the sign of `y`
  obtain ⟨y, hyt, hyb, i₁, hi₁⟩ : ∃ y : Fin m → K, (∀ s ∈ tight v x, s ⬝ᵥ y = 0) ∧ b ⬝ᵥ y = 0 ∧
      ∃ i, v i ⬝ᵥ y < 0 := by
    obtain ⟨i, hi⟩ := hex
    rcases lt_or_gt_of_ne hi with h | h
    · exact ⟨y, hyt, hyb, i, h⟩
    · refine ⟨-y, fun s hs => ?_, ?_, i, ?_⟩
      · rw [dotProduct_neg, hyt s hs, neg_zero]
      · rw [dotProduct_neg, hyb, neg_zero]
      · rw [dotProduct_neg]; linarith
  -- the first vector met
  obtain ⟨i₀, hi₀, hmin⟩ := Set.exists_min_image {i | v i ⬝ᵥ y < 0}
    (fun i => (v i ⬝ᵥ x) / (-(v i ⬝ᵥ y))) (Set.toFinite _) ⟨i₁, hi₁⟩
  have hi₀' : 0 < -(v i₀ ⬝ᵥ y) := by have : v i₀ ⬝ᵥ y < 0 := hi₀; linarith
  set t := (v i₀ ⬝ᵥ x) / (-(v i₀ ⬝ᵥ y)) with ht
  have ht0 : 0 ≤ t := div_nonneg (hx i₀) hi₀'.le
  have htight : v i₀ ⬝ᵥ (x + t • y) = 0 := by
    have hne : v i₀ ⬝ᵥ y ≠ 0 := by intro h; rw [h, neg_zero] at hi₀'; exact lt_irrefl _ hi₀'
    rw [dotProduct_add, dotProduct_smul, smul_eq_mul, ht, div_neg, neg_mul, div_mul_cancel₀ _ hne]
    exact add_neg_cancel _
  refine ⟨x + t • y, fun i => ?_, ?_, ?_⟩
  · rw [dotProduct_add, dotProduct_smul, smul_eq_mul]
    by_cases hi : v i ⬝ᵥ y < 0
    · have := hmin i hi
      have hneg : 0 < -(v i ⬝ᵥ y) := by linarith
      rw [le_div_iff₀ hneg] at this
      linarith
    · have h1 := mul_nonneg ht0 (not_lt.mp hi)
      have h2 := hx i
      linarith
  · rw [dotProduct_add, dotProduct_smul, hyb, smul_zero, add_zero]; exact hb
  · refine Submodule.finrank_lt_finrank_of_lt (lt_of_le_of_ne ?_ fun he => ?_)
    · refine Submodule.span_mono (Set.image_mono fun i hi => ?_)
      have h1 : v i ⬝ᵥ x = 0 := hi
      have h2 := hyt (v i) (Submodule.subset_span ⟨i, hi, rfl⟩)
      change v i ⬝ᵥ (x + t • y) = 0
      rw [dotProduct_add, dotProduct_smul, h1, h2, smul_zero, add_zero]
    · have hmem : v i₀ ∈ tight v x := he ▸ Submodule.subset_span ⟨i₀, htight, rfl⟩
      have := hyt _ hmem
      linarith

/-- The fundamental theorem of linear inequalities: if the `v i` span the space and `b` is not a
nonnegative combination of them, there is a hyperplane containing `m - 1` linearly independent `v i` that
has all `v i` on its nonnegative side and `b` strictly on the other. -/
theorem separating_facet {n : ℕ} (v : Fin n → Fin m → K) (hv : Submodule.span K (Set.range v) = ⊤)
    (b : Fin m → K) (hb : ¬ ∃ u : Fin n → K, (∀ i, 0 ≤ u i) ∧ b = ∑ i, u i • v i) :
    ∃ x, (∀ i, 0 ≤ v i ⬝ᵥ x) ∧ b ⬝ᵥ x < 0 ∧ Module.finrank K (tight v x) + 1 = m := by
  have hex : ∃ x, (∀ i, 0 ≤ v i ⬝ᵥ x) ∧ b ⬝ᵥ x < 0 := by
    by_contra hne
    push Not at hne
    exact hb (farkas v b hne)
  have hlt : ∀ x, b ⬝ᵥ x < 0 → Module.finrank K (tight v x) < m := by
    intro x hx
    have hne : tight v x ≠ ⊤ := by
      intro he
      have := tight_orthogonal v x (s := b) (he ▸ Submodule.mem_top)
      linarith
    have := Submodule.finrank_lt hne
    rwa [Module.finrank_fin_fun] at this
  obtain ⟨x, hx, hbx⟩ := hex
  obtain ⟨d, hd⟩ : ∃ d, m - Module.finrank K (tight v x) = d := ⟨_, rfl⟩
  induction d using Nat.strong_induction_on generalizing x with
  | _ d ih =>
    have h1 := hlt x hbx
    by_cases hr : Module.finrank K (tight v x) + 1 = m
    · exact ⟨x, hx, hbx, hr⟩
    · obtain ⟨x', hx', hbx', hgt⟩ := tight_step v hv b x hx hbx (by omega)
      have h2 := hlt x' hbx'
      exact ih _ (by omega) x' hx' hbx' rfl

end Verif
