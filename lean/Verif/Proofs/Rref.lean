import Verif.Proofs.Elim
import Mathlib.LinearAlgebra.Matrix.Rank
import Mathlib.LinearAlgebra.Matrix.ToLin

/-!
# Kernel, range, rank and uniqueness of the reduced row echelon form
-/

set_option linter.unusedSectionVars false

namespace Verif

open Res LawfulRField LinAlg

variable {F : Type} [RField F] {K : Type} [Field K] [LawfulRField F K] [EpsilonEquality F]
  [StabilityCmp F] [LawfulPivot F K]

/-- The columns without a pivot. -/
def freeCols (m k : ℕ) (piv : ℕ → ℕ) : List ℕ :=
  (List.range m).filter fun c => decide (∀ r, r < k → piv r ≠ c)

theorem mem_freeCols {m k : ℕ} {piv : ℕ → ℕ} {c : ℕ} :
    c ∈ freeCols m k piv ↔ c < m ∧ ∀ r, r < k → piv r ≠ c := by
  simp [freeCols]

theorem freeCols_nodup (m k : ℕ) (piv : ℕ → ℕ) : (freeCols m k piv).Nodup :=
  List.Nodup.filter _ List.nodup_range

/-- The `j`-th entry of the kernel vector of the free column `c`. -/
def kv (b : ℕ → ℕ → K) (k : ℕ) (piv : ℕ → ℕ) (c j : ℕ) : K :=
  (if j = c then 1 else 0) - ∑ r ∈ Finset.range k, if piv r = j then b r c else 0

theorem Form.Is.computeKernel {f : Form F} {M : Mat F} {n m k : ℕ} {a b : ℕ → ℕ → K} {piv : ℕ → ℕ}
    (h : f.Is M n m a b) (he : Ech n m k piv b) :
    Spec (allowed F) f.computeKernel (fun ks =>
      List.Forall₂ (fun c w => w.Is m 1 (fun j _ => kv b k piv c j)) (freeCols m k piv) ks) := by
  unfold Form.computeKernel
  refine (h.boundVariables he).bind fun bound hb => ?_
  have hfree : ((List.range f.b.cols).filter fun c => !bound.contains c) = freeCols m k piv := by
    rw [h.b_is.cols, freeCols]
    refine List.filter_congr fun c _ => ?_
    rw [Bool.eq_iff_iff]
    simp only [Bool.not_eq_true', decide_eq_true_eq, List.contains_eq_mem, decide_eq_false_iff_not, hb.2]
    push Not
    rfl
  rw [hfree, h.b_is.rows, h.b_is.cols]
  refine mapM_spec fun c hc => ?_
  rw [mem_freeCols] at hc
  refine (foldlM_range_spec (fun q (w : Mat F) => w.Is m 1
    (fun j _ => kv b (min q k) piv c j)) ?_ ?_).imp fun w hw => ?_
  · exact (Mat.is_e h.b_is.cols_lt).congr fun i j _ _ => by simp [kv]
  · intro r w hr hw
    refine (h.b_is.firstNonzero_ech he hr).bind ?_
    rintro _ rfl
    by_cases hk : r < k
    · have hmin : min (r + 1) k = min r k + 1 := by omega
      have hmin' : min r k = r := by omega
      rw [if_pos hk]
      dsimp only
      by_cases hlt : piv r < c
      · rw [if_pos hlt]
        refine (h.b_is.get_spec hr hc.1).bind fun x hx => ?_
        refine (sub_spec _ x wf_zero hx.1).bind fun y hy => ?_
        refine (hw.set_spec (he.lt r hk) (by omega) hy.1).imp fun w' hw' => hw'.congr fun i j hi hj => ?_
        rw [hy.2, val_zero, hx.2]
        have hj0 : j = 0 := by omega
        subst hj0
        unfold Mat.upd
        simp only [and_true]
        rw [hmin, hmin']
        split
        · rename_i hi'
          subst hi'
          rw [kv, Finset.sum_range_succ, if_neg (by omega), if_pos rfl, Finset.sum_eq_zero]
          · ring
          · intro r' hr'
            have := he.mono r' r (by simpa using hr') hk
            rw [if_neg (by omega)]
        · rename_i hi'
          rw [kv, kv, Finset.sum_range_succ, if_neg (show ¬ piv r = i from fun h => hi' h.symm),
            add_zero]
      · rw [if_neg hlt]
        refine hw.congr fun i j _ _ => ?_
        have hgt : c < piv r := by have := hc.2 r hk; omega
        rw [hmin, hmin', kv, kv, Finset.sum_range_succ, he.left r hk c hgt]
        simp
    · rw [if_neg hk]
      have : min (r + 1) k = min r k := by omega
      rw [this]
      exact hw
  · have := he.le
    rw [Nat.min_eq_right this] at hw
    exact hw

theorem Form.Is.computeRange {f : Form F} {M : Mat F} {n m k : ℕ} {a b : ℕ → ℕ → K} {piv : ℕ → ℕ}
    (h : f.Is M n m a b) (hM : M.Is n m a) (he : Ech n m k piv b) {order : List ℕ → List ℕ}
    (ho : ∀ l, (order l).Perm l) :
    Spec (allowed F) (f.computeRange order) (fun rs => ∃ cs : List ℕ, cs.Nodup ∧
      (∀ c, c ∈ cs ↔ ∃ r, r < k ∧ piv r = c) ∧
      List.Forall₂ (fun c w => w.Is n 1 (fun i _ => a i c)) cs rs) := by
  unfold Form.computeRange
  refine (h.boundVariables he).bind fun bound hb => ?_
  rw [h.original]
  refine (mapM_spec (P := fun c w => w.Is n 1 (fun i _ => a i c)) fun c hc => ?_).imp fun rs hrs =>
    ⟨order bound, (ho bound).nodup_iff.mpr hb.1, fun c => ((ho bound).mem_iff).trans (hb.2 c), hrs⟩
  obtain ⟨r, hr, rfl⟩ := (hb.2 c).mp ((ho bound).mem_iff.mp hc)
  exact hM.getCol (he.lt r hr)

section math
omit [LawfulPivot F K] [StabilityCmp F] [EpsilonEquality F] [LawfulRField F K] [RField F]
variable {n m k : ℕ} {b : ℕ → ℕ → K} {piv : ℕ → ℕ}

theorem sum_pivots (hp : ∀ r, r < k → piv r < m) (x : ℕ → K) (y : ℕ → K) :
    ∑ j ∈ Finset.range m, x j * (∑ r ∈ Finset.range k, if piv r = j then y r else 0) =
      ∑ r ∈ Finset.range k, x (piv r) * y r := by
  simp_rw [Finset.mul_sum]
  rw [Finset.sum_comm]
  refine Finset.sum_congr rfl fun r hr => ?_
  rw [Finset.sum_eq_single (piv r)]
  · rw [if_pos rfl]
  · intro j _ hj; rw [if_neg (Ne.symm hj), mul_zero]
  · intro h; exact absurd (Finset.mem_range.mpr (hp r (by simpa using hr))) h

/-- `Σ_j x_j kv_c(j) = x_c - Σ_r x_{piv r} b r c`. -/
theorem sum_mul_kv (hp : ∀ r, r < k → piv r < m) (x : ℕ → K) {c : ℕ} (hc : c < m) :
    ∑ j ∈ Finset.range m, x j * kv b k piv c j =
      x c - ∑ r ∈ Finset.range k, x (piv r) * b r c := by
  simp only [kv, mul_sub, Finset.sum_sub_distrib]
  rw [sum_pivots hp x (fun r => b r c)]
  congr 1
  simp [hc]

theorem REch.kv_mem (h : REch n m k piv b) {c : ℕ} (hc : c < m) {i : ℕ} (hi : i < n) :
    ∑ j ∈ Finset.range m, b i j * kv b k piv c j = 0 := by
  rw [sum_mul_kv h.lt _ hc, Finset.sum_congr rfl (g := fun r => if i = r then b i c else 0)]
  · rw [Finset.sum_ite_eq]
    by_cases hk : i < k
    · simp [hk]
    · simp [hk, h.below i (by omega) hi c hc]
  · intro r hr
    rw [h.col hi (by simpa using hr)]
    split
    · rename_i he; rw [he, one_mul]
    · rw [zero_mul]

theorem kv_free {c j : ℕ} (hj : ∀ r, r < k → piv r ≠ j) : kv b k piv c j = if j = c then 1 else 0 := by
  rw [kv, Finset.sum_eq_zero, sub_zero]
  intro r hr
  rw [if_neg (hj r (by simpa using hr))]

theorem Ech.piv_inj (h : Ech n m k piv b) {r s : ℕ} (hr : r < k) (hs : s < k) (e : piv r = piv s) :
    r = s := by
  rcases lt_trichotomy r s with h1 | h1 | h1
  · have := h.mono r s h1 hs; omega
  · exact h1
  · have := h.mono s r h1 hr; omega

theorem REch.kv_piv (h : REch n m k piv b) {c r : ℕ} (hc : ∀ r, r < k → piv r ≠ c) (hr : r < k) :
    kv b k piv c (piv r) = - b r c := by
  rw [kv, if_neg (hc r hr), Finset.sum_eq_single r]
  · simp
  · intro s hs hne
    rw [if_neg fun e => hne (h.piv_inj (by simpa using hs) hr e)]
  · intro h'; exact absurd (Finset.mem_range.mpr hr) h'

/-- Sums over the columns split into free columns and pivots. -/
theorem Ech.sum_split (h : Ech n m k piv b) (x : ℕ → K) :
    ∑ j ∈ Finset.range m, x j =
      ((freeCols m k piv).map x).sum + ∑ r ∈ Finset.range k, x (piv r) := by
  have h1 : ((freeCols m k piv).map x).sum = ∑ j ∈ (freeCols m k piv).toFinset, x j :=
    (List.sum_toFinset _ (freeCols_nodup m k piv)).symm
  have h2 : ∑ r ∈ Finset.range k, x (piv r) = ∑ j ∈ (Finset.range k).image piv, x j := by
    rw [Finset.sum_image]
    intro r hr s hs e
    exact h.piv_inj (by simpa using hr) (by simpa using hs) e
  rw [h1, h2, ← Finset.sum_union]
  · refine Finset.sum_congr ?_ fun _ _ => rfl
    ext j
    simp only [Finset.mem_range, Finset.mem_union, List.mem_toFinset, mem_freeCols, Finset.mem_image]
    constructor
    · intro hj
      by_cases hp : ∃ r, r < k ∧ piv r = j
      · exact Or.inr hp
      · push Not at hp; exact Or.inl ⟨hj, hp⟩
    · rintro (hj | ⟨r, hr, rfl⟩)
      · exact hj.1
      · exact h.lt r hr
  · rw [Finset.disjoint_left]
    intro j hj hj'
    simp only [List.mem_toFinset, mem_freeCols, Finset.mem_image, Finset.mem_range] at hj hj'
    obtain ⟨r, hr, rfl⟩ := hj'
    exact hj.2 r hr rfl

/-- A kernel vector is the combination of the `kv` with its free entries as coefficients. -/
theorem REch.kernel_eq (h : REch n m k piv b) {x : ℕ → K}
    (hx : ∀ i, i < n → ∑ j ∈ Finset.range m, b i j * x j = 0) {j : ℕ} (hj : j < m) :
    x j = ((freeCols m k piv).map fun c => x c * kv b k piv c j).sum := by
  by_cases hp : ∃ r, r < k ∧ piv r = j
  · obtain ⟨r, hr, rfl⟩ := hp
    have hrn : r < n := hr.trans_le h.le
    have h1 := hx r hrn
    rw [h.toEch.sum_split] at h1
    have h2 : ∑ s ∈ Finset.range k, b r (piv s) * x (piv s) = x (piv r) := by
      rw [Finset.sum_eq_single r]
      · rw [h.one r hr, one_mul]
      · intro s hs hne
        rw [h.col hrn (by simpa using hs), if_neg (Ne.symm hne), zero_mul]
      · intro h'; exact absurd (Finset.mem_range.mpr hr) h'
    rw [h2] at h1
    have h3 : ((freeCols m k piv).map fun c => x c * kv b k piv c (piv r)) =
        (freeCols m k piv).map fun c => -(b r c * x c) := by
      refine List.map_congr_left fun c hc => ?_
      rw [h.kv_piv (mem_freeCols.mp hc).2 hr]; ring
    rw [← List.sum_toFinset _ (freeCols_nodup m k piv)] at h1
    rw [h3, ← List.sum_toFinset _ (freeCols_nodup m k piv), Finset.sum_neg_distrib]
    exact (neg_eq_of_add_eq_zero_right h1).symm
  · push Not at hp
    have h3 : ((freeCols m k piv).map fun c => x c * kv b k piv c j) =
        (freeCols m k piv).map fun c => if j = c then x j else 0 := by
      refine List.map_congr_left fun c hc => ?_
      rw [kv_free hp]
      split
      · rename_i he; rw [he, mul_one]
      · rw [mul_zero]
    rw [h3, ← List.sum_toFinset _ (freeCols_nodup m k piv), Finset.sum_ite_eq, if_pos]
    rw [List.mem_toFinset, mem_freeCols]
    exact ⟨hj, hp⟩

/-! ### Uniqueness -/

theorem piv_eq {k' : ℕ} {b' : ℕ → ℕ → K} {piv' : ℕ → ℕ} (h : Ech n m k piv b) (h' : Ech n m k' piv' b')
    {c : ℕ} (hb : ∀ i, i < n → ∀ j, j < c → b i j = b' i j) {i : ℕ} (hi : i < k) (hc : piv i < c) :
    i < k' ∧ piv' i = piv i := by
  have hin : i < n := hi.trans_le h.le
  have h1 : b' i (piv i) = 1 := by rw [← hb i hin _ hc]; exact h.one i hi
  have hk : i < k' := by
    by_contra hk
    rw [h'.below i (by omega) hin _ (h.lt i hi)] at h1
    exact zero_ne_one h1
  refine ⟨hk, ?_⟩
  rcases lt_trichotomy (piv' i) (piv i) with h2 | h2 | h2
  · have h3 := h'.one i hk
    rw [← hb i hin _ (by omega), h.left i hi _ h2] at h3
    exact absurd h3 zero_ne_one
  · exact h2
  · rw [h'.left i hk _ h2] at h1
    exact absurd h1 zero_ne_one

theorem REch.free_col {k' : ℕ} {b' : ℕ → ℕ → K} {piv' : ℕ → ℕ} (h : REch n m k piv b)
    (h' : REch n m k' piv' b')
    (hker : ∀ x : ℕ → K, (∀ i, i < n → ∑ j ∈ Finset.range m, b' i j * x j = 0) →
      ∀ i, i < n → ∑ j ∈ Finset.range m, b i j * x j = 0)
    {c : ℕ} (hcm : c < m) (hb : ∀ i, i < n → ∀ j, j < c → b i j = b' i j)
    (hc : ∀ r, r < k' → piv' r ≠ c) {i : ℕ} (hi : i < n) : b i c = b' i c := by
  have h1 := hker (kv b' k' piv' c) (fun i hi => h'.kv_mem hcm hi) i hi
  rw [sum_mul_kv h'.lt _ hcm, sub_eq_zero] at h1
  rw [h1, Finset.sum_congr rfl (g := fun r => if i = r then b' i c else 0)]
  · rw [Finset.sum_ite_eq]
    by_cases hk : i < k'
    · simp [hk]
    · simp [hk, h'.below i (by omega) hi c hcm]
  · intro r hr
    have hr : r < k' := by simpa using hr
    rcases lt_or_gt_of_ne (hc r hr) with hlt | hgt
    · obtain ⟨hk, hp⟩ := piv_eq h'.toEch h.toEch (fun i hi j hj => (hb i hi j hj).symm) hr hlt
      rw [← hp, h.col hi hk]
      split
      · rename_i he; rw [he, one_mul]
      · rw [zero_mul]
    · rw [h'.left r hr c hgt, mul_zero]
      split
      · rename_i he; rw [he, h'.left r hr c hgt]
      · rfl

/-- Reduced row echelon forms with the same kernel are equal. -/
theorem REch.unique {k' : ℕ} {b' : ℕ → ℕ → K} {piv' : ℕ → ℕ} (h : REch n m k piv b)
    (h' : REch n m k' piv' b')
    (hker : ∀ x : ℕ → K, (∀ i, i < n → ∑ j ∈ Finset.range m, b' i j * x j = 0) ↔
      ∀ i, i < n → ∑ j ∈ Finset.range m, b i j * x j = 0) :
    ∀ c, c ≤ m → ∀ i, i < n → ∀ j, j < c → b i j = b' i j := by
  intro c
  induction c with
  | zero => intro _ i _ j hj; omega
  | succ c ih =>
    intro hc
    have hb := ih (by omega)
    have hb' : ∀ i, i < n → ∀ j, j < c → b' i j = b i j := fun i hi j hj => (hb i hi j hj).symm
    intro i hi j hj
    rcases Nat.lt_succ_iff_lt_or_eq.mp hj with hj | rfl
    · exact hb i hi j hj
    · by_cases hp' : ∀ r, r < k' → piv' r ≠ j
      · exact h.free_col h' (fun x => (hker x).mp) hc hb hp' hi
      · by_cases hp : ∀ r, r < k → piv r ≠ j
        · exact (h'.free_col h (fun x => (hker x).mpr) hc hb' hp hi).symm
        · push Not at hp hp'
          obtain ⟨r, hr, rfl⟩ := hp
          obtain ⟨r', hr', he⟩ := hp'
          have hrr : r = r' := by
            rcases lt_trichotomy r r' with h1 | h1 | h1
            · have h2 := h'.mono r r' h1 hr'
              rw [he] at h2
              obtain ⟨_, h3⟩ := piv_eq h'.toEch h.toEch hb' (h1.trans hr') h2
              omega
            · exact h1
            · have h2 := h.mono r' r h1 hr
              obtain ⟨_, h3⟩ := piv_eq h.toEch h'.toEch hb (h1.trans hr) h2
              omega
          subst hrr
          rw [h.col hi hr, ← he, h'.col hi hr']

/-! ### Independence of the rows and of the pivot columns -/

theorem Ech.rows_indep (h : Ech n m k piv b) (g : ℕ → K)
    (hg : ∀ j, j < m → ∑ r ∈ Finset.range k, g r * b r j = 0) : ∀ r, r < k → g r = 0 := by
  intro r
  induction r using Nat.strong_induction_on with
  | _ r ih =>
    intro hr
    have h1 := hg (piv r) (h.lt r hr)
    rw [Finset.sum_eq_single r] at h1
    · rwa [h.one r hr, mul_one] at h1
    · intro s hs hne
      have hs : s < k := by simpa using hs
      rcases lt_or_gt_of_ne hne with hlt | hgt
      · rw [ih s hlt hs, zero_mul]
      · rw [h.left s hs _ (h.mono r s hgt hs), mul_zero]
    · intro h'; exact absurd (Finset.mem_range.mpr hr) h'

theorem Ech.cols_indep (h : Ech n m k piv b) (g : ℕ → K)
    (hg : ∀ i, i < n → ∑ r ∈ Finset.range k, g r * b i (piv r) = 0) : ∀ r, r < k → g r = 0 := by
  have : ∀ d r, r + d + 1 = k → g r = 0 := by
    intro d
    induction d using Nat.strong_induction_on with
    | _ d ih =>
      intro r hr
      have hrk : r < k := by omega
      have h1 := hg r (hrk.trans_le h.le)
      rw [Finset.sum_eq_single r] at h1
      · rwa [h.one r hrk, mul_one] at h1
      · intro s hs hne
        have hs : s < k := by simpa using hs
        rcases lt_or_gt_of_ne hne with hlt | hgt
        · rw [h.left r hrk _ (h.mono s r hlt hrk), mul_zero]
        · rw [ih (k - s - 1) (by omega) s (by omega), zero_mul]
      · intro h'; exact absurd (Finset.mem_range.mpr hrk) h'
  intro r hr
  exact this (k - r - 1) r (by omega)

end math
end Verif
