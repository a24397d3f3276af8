import Verif.LinAlg.Algorithm
import Verif.Proofs.Mat
import Mathlib.LinearAlgebra.Matrix.Transvection
import Mathlib.LinearAlgebra.Matrix.NonsingularInverse
import Mathlib.LinearAlgebra.Matrix.Permutation

/-!
# Elimination: pivots, row operations, echelon forms
-/

set_option linter.unusedSectionVars false

namespace Verif
open Res LawfulRField LinAlg

variable {F : Type} [RField F] {K : Type} [Field K] [LawfulRField F K]
  [EpsilonEquality F] [StabilityCmp F] [LawfulPivot F K]

/-! ### Choosing a pivot -/

omit [EpsilonEquality F] [StabilityCmp F] [LawfulPivot F K] in
theorem zipIdx_map_cons {α : Type} (x : α) (xs : List α) :
    ((x :: xs).zipIdx.map fun (x, i) => (i, x)) = (0, x) :: (xs.zipIdx 1).map fun (x, i) => (i, x) := by
  simp [List.zipIdx_cons]

/-- `get_max_index` with `stability_cmp` finds a nonzero entry if there is one. -/
theorem getMaxIndex_spec (l : List F) (hl : l ≠ []) (hw : ∀ x ∈ l, wf x) :
    Spec (allowed F) (getMaxIndex l StabilityCmp.stabilityCmp) (fun i => ∃ x, l[i]? = some x ∧
      ((∃ y ∈ l, val y ≠ (0 : K)) → val x ≠ (0 : K))) := by
  obtain ⟨x, xs, rfl⟩ := List.exists_cons_of_ne_nil hl
  unfold getMaxIndex
  rw [zipIdx_map_cons, maxBy]
  have key : Spec (allowed F) (((xs.zipIdx 1).map fun (x, i) => (i, x)).foldlM
      (fun (best y : ℕ × F) => do
        match ← (do
          match ← StabilityCmp.stabilityCmp best.2 y.2 with
          | some o => pure o
          | none => .panic .unwrapNone : Res Ordering) with
        | .gt => pure best
        | _ => pure y) (0, x))
      (fun b => (x :: xs)[b.1]? = some b.2 ∧ ((∃ y ∈ x :: xs, val y ≠ (0 : K)) → val b.2 ≠ (0 : K))) := by
    refine (foldlM_spec (fun done b => (x :: xs)[b.1]? = some b.2 ∧
      ((∃ y ∈ x :: done.map (·.2), val y ≠ (0 : K)) → val b.2 ≠ (0 : K))) ⟨rfl, by simp⟩ ?_).imp ?_
    · rintro done ⟨i, y⟩ rest ⟨bi, bx⟩ heq ⟨h1, h2⟩
      have hmem : (i, y) ∈ (xs.zipIdx 1).map fun (x, i) => (i, x) := by rw [heq]; simp
      obtain ⟨⟨y', i'⟩, hz, hzz⟩ := List.mem_map.mp hmem
      simp only [Prod.mk.injEq] at hzz
      obtain ⟨rfl, rfl⟩ := hzz
      have hz2 := List.mem_zipIdx hz
      have hy : (x :: xs)[i']? = some y' := by
        obtain ⟨k, hk⟩ : ∃ k, i' = k + 1 := ⟨i' - 1, by omega⟩
        subst hk
        rw [List.getElem?_cons_succ, List.getElem?_eq_getElem (by omega)]
        simp only [hz2.2.2, Nat.add_sub_cancel]
      have hwb : wf bx := hw bx (List.mem_of_getElem? h1)
      have hwy : wf y' := hw y' (List.mem_of_getElem? hy)
      refine Spec.bind (P := fun r => (val bx ≠ (0 : K) → val y' = (0 : K) → r = .gt) ∧
        (val bx = (0 : K) → val y' ≠ (0 : K) → r ≠ .gt)) ?_ ?_
      · refine (LawfulPivot.stab bx y' hwb hwy).bind ?_
        rintro _ ⟨r, rfl, hr⟩
        exact hr
      · intro r hr
        have hex : (∃ z ∈ x :: (done ++ [(i', y')]).map (·.2), val z ≠ (0 : K)) →
            (val bx ≠ (0 : K)) ∨ val y' ≠ (0 : K) := by
          rintro ⟨z, hz, hz0⟩
          simp only [List.map_append, List.map_cons, List.map_nil, List.mem_cons, List.mem_append,
            List.not_mem_nil, or_false] at hz
          rcases hz with rfl | hz | rfl
          · exact Or.inl (h2 ⟨z, by simp, hz0⟩)
          · exact Or.inl (h2 ⟨z, List.mem_cons_of_mem _ hz, hz0⟩)
          · exact Or.inr hz0
        cases r with
        | gt =>
          refine ⟨h1, fun h => ?_⟩
          rcases hex h with h | h
          · exact h
          · intro h0; exact hr.2 h0 h rfl
        | lt =>
          refine ⟨hy, fun h => ?_⟩
          rcases hex h with h | h
          · intro h0; exact absurd (hr.1 h h0) (by decide)
          · exact h
        | eq =>
          refine ⟨hy, fun h => ?_⟩
          rcases hex h with h | h
          · intro h0; exact absurd (hr.1 h h0) (by decide)
          · exact h
    · rintro ⟨bi, bx⟩ ⟨h1, h2⟩
      refine ⟨h1, ?_⟩
      have : ((xs.zipIdx 1).map fun (x, i) => (i, x)).map (·.2) = xs := by
        rw [List.map_map]
        exact List.zipIdx_map_fst .. 
      rwa [this] at h2
  refine (Spec.map (P := fun o => ∃ b, o = some b ∧ (x :: xs)[b.1]? = some b.2 ∧
    ((∃ y ∈ x :: xs, val y ≠ (0 : K)) → val b.2 ≠ (0 : K))) (key.imp fun b hb => ⟨b, rfl, hb⟩)).bind ?_
  rintro _ ⟨⟨i, y⟩, rfl, h1, h2⟩
  exact ⟨y, h1, h2⟩

namespace Mat
variable {M : Mat F} {n m : ℕ} {a : ℕ → ℕ → K}

theorem Is.getStable (h : M.Is n m a) {c r : ℕ} (hc : c < m) (hr : r < n) :
    Spec (allowed F) (M.getStable c r) (fun o => match o with
      | none => ∀ i, r ≤ i → i < n → a i c = 0
      | some (i, s) => r ≤ i ∧ i < n ∧ wf s ∧ val s = a i c ∧ a i c ≠ 0) := by
  unfold Mat.getStable
  refine (h.getColIter hc).bind fun col ⟨hlen, hcol⟩ => ?_
  have hdrop : ∀ k, k < n - r → ∃ x, (col.drop r)[k]? = some x ∧ wf x ∧ val x = a (k + r) c := by
    intro k hk
    obtain ⟨x, h1, _, h2, h3⟩ := hcol (k + r) (by omega)
    exact ⟨x, by rw [List.getElem?_drop, Nat.add_comm, h1], h2, h3⟩
  have hdl : (col.drop r).length = n - r := by simp [hlen]
  have hmem : ∀ x ∈ col.drop r, ∃ k, k < n - r ∧ (col.drop r)[k]? = some x := by
    intro x hx
    obtain ⟨k, hk⟩ := List.getElem?_of_mem hx
    refine ⟨k, ?_, hk⟩
    rw [← hdl]
    exact (List.getElem?_eq_some_iff.mp hk).1
  refine (getMaxIndex_spec (col.drop r) (by rw [← List.length_pos_iff]; omega) ?_).bind ?_
  · intro x hx
    obtain ⟨k, hk, hkx⟩ := hmem x hx
    obtain ⟨x', h1, h2, _⟩ := hdrop k hk
    rw [hkx] at h1; cases h1; exact h2
  · rintro k ⟨x, hkx, hmax⟩
    have hk : k < n - r := by rw [← hdl]; exact (List.getElem?_eq_some_iff.mp hkx).1
    obtain ⟨x', h1, h2, h3⟩ := hdrop k hk
    rw [hkx] at h1; cases h1
    obtain ⟨y, hy, hyw, hyv⟩ := h.get (show k + r < n by omega) hc
    dsimp only
    rw [hy, bind_ok]
    refine (LawfulPivot.eps_zero y hyw).bind fun b hb => ?_
    by_cases h0 : b = true
    · rw [if_pos h0]
      intro i hri hin
      by_contra hne
      obtain ⟨z, hz, hzw, hzv⟩ := hdrop (i - r) (by omega)
      rw [Nat.sub_add_cancel hri] at hzv
      have := hmax ⟨z, List.mem_of_getElem? hz, by rw [hzv]; exact hne⟩
      rw [h3, ← hyv] at this
      exact this (hb.mp h0)
    · rw [if_neg h0]
      refine ⟨by omega, by omega, hyw, hyv, ?_⟩
      rw [← hyv]
      intro h; exact h0 (hb.mpr h)

end Mat

/-! ### Row operations as products with invertible matrices -/

section rowops
omit [LawfulPivot F K] [StabilityCmp F] [EpsilonEquality F] [LawfulRField F K] [RField F]
open Matrix

/-- The `n × m` matrix with entries `a i j`. -/
def mat (n m : ℕ) (a : ℕ → ℕ → K) : Matrix (Fin n) (Fin m) K := fun i j => a i j

omit [Field K] in
theorem mat_congr {n m : ℕ} {a a' : ℕ → ℕ → K} (h : ∀ i j, i < n → j < m → a i j = a' i j) :
    mat n m a = mat n m a' := by
  ext i j; exact h i j i.2 j.2

theorem swap_val {n : ℕ} (s t i : Fin n) : ((Equiv.swap s t i : Fin n) : ℕ) = Equiv.swap (s : ℕ) t i := by
  by_cases h1 : i = s
  · subst h1; simp
  · by_cases h2 : i = t
    · subst h2; simp
    · rw [Equiv.swap_apply_of_ne_of_ne h1 h2, Equiv.swap_apply_of_ne_of_ne]
      · exact fun h => h1 (Fin.ext h)
      · exact fun h => h2 (Fin.ext h)

theorem swap_lt {n s t i : ℕ} (hs : s < n) (ht : t < n) (hi : i < n) : Equiv.swap s t i < n := by
  have := swap_val ⟨s, hs⟩ ⟨t, ht⟩ ⟨i, hi⟩
  simp only at this
  rw [← this]; exact Fin.is_lt _

theorem isUnit_perm {n : ℕ} (σ : Equiv.Perm (Fin n)) : IsUnit (σ.permMatrix K) := by
  rw [Matrix.isUnit_iff_isUnit_det, Matrix.det_permutation]
  exact (Equiv.Perm.sign σ).isUnit.map (Int.castRingHom K)

theorem perm_mul {n : ℕ} (σ : Equiv.Perm (Fin n)) {m : ℕ} (A : Matrix (Fin n) (Fin m) K) (i : Fin n)
    (j : Fin m) : (σ.permMatrix K * A) i j = A (σ i) j := by
  rw [PEquiv.toMatrix_toPEquiv_mul]; rfl

theorem rowSwap {n s t : ℕ} (hs : s < n) (ht : t < n) : ∃ E : Matrix (Fin n) (Fin n) K, IsUnit E ∧
    ∀ m a, mat n m (fun i j => a (Equiv.swap s t i) j) = E * mat n m a := by
  refine ⟨(Equiv.swap ⟨s, hs⟩ ⟨t, ht⟩ : Equiv.Perm (Fin n)).permMatrix K, isUnit_perm _, fun m a => ?_⟩
  ext i j
  rw [perm_mul]
  simp only [mat, swap_val]

theorem rowScale {n r : ℕ} {v : K} (hv : v ≠ 0) :
    ∃ E : Matrix (Fin n) (Fin n) K, IsUnit E ∧
    ∀ m a, mat n m (fun i j => if i = r then v * a r j else a i j) = E * mat n m a := by
  refine ⟨diagonal (fun i : Fin n => if (i : ℕ) = r then v else 1), ?_, fun m a => ?_⟩
  · rw [Matrix.isUnit_iff_isUnit_det, det_diagonal, isUnit_iff_ne_zero, Finset.prod_ne_zero_iff]
    intro i _
    split
    · exact hv
    · exact one_ne_zero
  · ext i j
    rw [diagonal_mul]
    simp only [mat]
    split
    · rename_i h; rw [h]
    · rw [one_mul]

theorem rowReplace {n s t : ℕ} {c : K} (hs : s < n) (ht : t < n) (hst : s ≠ t) :
    ∃ E : Matrix (Fin n) (Fin n) K, IsUnit E ∧
    ∀ m a, mat n m (fun i j => if i = t then a t j + a s j * c else a i j) = E * mat n m a := by
  have hne : (⟨t, ht⟩ : Fin n) ≠ ⟨s, hs⟩ := fun h => hst (Fin.mk.inj_iff.mp h).symm
  refine ⟨transvection ⟨t, ht⟩ ⟨s, hs⟩ c, ?_, fun m a => ?_⟩
  · rw [Matrix.isUnit_iff_isUnit_det, det_transvection_of_ne _ _ hne]
    exact isUnit_one
  · ext i j
    by_cases h : i = ⟨t, ht⟩
    · subst h
      rw [transvection_mul_apply_same]
      simp [mat, mul_comm]
    · rw [transvection_mul_apply_of_ne _ _ _ _ h]
      have : (i : ℕ) ≠ t := fun h' => h (Fin.ext h')
      simp [mat, this]

end rowops

/-! ### Echelon forms -/

/-- Row echelon form of the first `c` columns of an `n`-row matrix: the first `k` rows have their
first nonzero entry, a one, in the columns `piv 0 < piv 1 < … < c`, and the other rows are zero. -/
structure Ech (n c k : ℕ) (piv : ℕ → ℕ) (a : ℕ → ℕ → K) : Prop where
  le : k ≤ n
  lt : ∀ i, i < k → piv i < c
  mono : ∀ i j, i < j → j < k → piv i < piv j
  one : ∀ i, i < k → a i (piv i) = 1
  left : ∀ i, i < k → ∀ j, j < piv i → a i j = 0
  below : ∀ i, k ≤ i → i < n → ∀ j, j < c → a i j = 0

section ech
omit [LawfulPivot F K] [StabilityCmp F] [EpsilonEquality F] [LawfulRField F K] [RField F]
variable {n c k m : ℕ} {piv : ℕ → ℕ} {a : ℕ → ℕ → K}

theorem Ech.zero (n : ℕ) (piv : ℕ → ℕ) (a : ℕ → ℕ → K) : Ech n 0 0 piv a where
  le := Nat.zero_le _
  lt _ h := absurd h (Nat.not_lt_zero _)
  mono _ _ _ h := absurd h (Nat.not_lt_zero _)
  one _ h := absurd h (Nat.not_lt_zero _)
  left _ h := absurd h (Nat.not_lt_zero _)
  below _ _ _ _ h := absurd h (Nat.not_lt_zero _)

theorem Ech.full (h : Ech n c n piv a) (hc : c ≤ m) : Ech n m n piv a where
  le := h.le
  lt i hi := (h.lt i hi).trans_le hc
  mono := h.mono
  one := h.one
  left := h.left
  below i h1 h2 := absurd h1 (by omega)

theorem Ech.skip (h : Ech n c k piv a) (hz : ∀ i, k ≤ i → i < n → a i c = 0) : Ech n (c + 1) k piv a where
  le := h.le
  lt i hi := (h.lt i hi).trans (Nat.lt_succ_self c)
  mono := h.mono
  one := h.one
  left := h.left
  below i h1 h2 j hj := by
    rcases Nat.lt_succ_iff_lt_or_eq.mp hj with hj | rfl
    · exact h.below i h1 h2 j hj
    · exact hz i h1 h2

/-- One step of the elimination: swap rows `r` and `s`, divide row `r` by the pivot, clear the
column below. -/
def elimStep (a : ℕ → ℕ → K) (r s c : ℕ) : ℕ → ℕ → K :=
  let a₁ := fun i j => a (Equiv.swap r s i) j
  let a₂ := fun i j => if i = r then 1 / a s c * a₁ r j else a₁ i j
  fun i j => if r < i then a₂ i j + a₂ r j * (0 - a₂ i c) else a₂ i j

theorem swap_ge {r s i : ℕ} (hs : r ≤ s) (hi : r ≤ i) : r ≤ Equiv.swap r s i := by
  by_cases h1 : i = r
  · subst h1; simpa using hs
  · by_cases h2 : i = s
    · subst h2; simp
    · rwa [Equiv.swap_apply_of_ne_of_ne h1 h2]

theorem swap_of_lt {r s i : ℕ} (hs : r ≤ s) (hi : i < r) : Equiv.swap r s i = i :=
  Equiv.swap_apply_of_ne_of_ne (by omega) (by omega)

theorem Ech.step {r s : ℕ} (h : Ech n c r piv a) (hs : r ≤ s) (hsn : s < n) (h0 : a s c ≠ 0) :
    Ech n (c + 1) (r + 1) (fun i => if i = r then c else piv i) (elimStep a r s c) := by
  have e1 : ∀ i, i < r → ∀ j, elimStep a r s c i j = a i j := by
    intro i hi j
    have h1 : ¬ r < i := by omega
    have h2 : i ≠ r := by omega
    simp only [elimStep, h1, h2, if_false, swap_of_lt hs hi]
  have e2 : ∀ j, elimStep a r s c r j = 1 / a s c * a s j := by
    intro j; simp [elimStep]
  have e3 : ∀ i, r < i → ∀ j, elimStep a r s c i j =
      a (Equiv.swap r s i) j + 1 / a s c * a s j * (0 - a (Equiv.swap r s i) c) := by
    intro i hi j
    have h2 : i ≠ r := by omega
    simp [elimStep, hi, h2]
  have z : ∀ i, r ≤ i → i < n → ∀ j, j < c → a i j = 0 := h.below
  refine ⟨by omega, ?_, ?_, ?_, ?_, ?_⟩
  · intro i hi
    split
    · omega
    · exact (h.lt i (by omega)).trans (Nat.lt_succ_self c)
  · intro i j hij hj
    rw [if_neg (by omega : i ≠ r)]
    split
    · exact h.lt i (by omega)
    · exact h.mono i j hij (by omega)
  · intro i hi
    split
    · rename_i hir; subst hir; rw [e2]; field_simp
    · rw [e1 i (by omega)]; exact h.one i (by omega)
  · intro i hi j hj
    split at hj
    · rename_i hir; subst hir; rw [e2, z s hs hsn j hj, mul_zero]
    · rw [e1 i (by omega)]; exact h.left i (by omega) j hj
  · intro i hi hin j hj
    rw [e3 i (by omega)]
    rcases Nat.lt_succ_iff_lt_or_eq.mp hj with hj | rfl
    · rw [z s hs hsn j hj, z _ (swap_ge hs (by omega)) (swap_lt (by omega) hsn hin) j hj]; ring
    · field_simp; ring

/-- The number of pivots is at most the number of columns. -/
theorem Ech.le_cols (h : Ech n m k piv a) : k ≤ m := by
  have : ∀ i, i < k → i ≤ piv i := by
    intro i
    induction i with
    | zero => intro _; exact Nat.zero_le _
    | succ i ih => intro hi; have := ih (by omega); have := h.mono i (i + 1) (by omega) hi; omega
  rcases Nat.eq_zero_or_pos k with rfl | hk
  · exact Nat.zero_le _
  · have h1 := this (k - 1) (by omega)
    have h2 := h.lt (k - 1) (by omega)
    omega

end ech

/-! ### The first nonzero entry of a row -/

namespace Mat
variable {M : Mat F} {n m : ℕ} {a : ℕ → ℕ → K}

omit [RField F] [EpsilonEquality F] [StabilityCmp F] [LawfulRField F K] [LawfulPivot F K] [Field K] in
theorem position_spec {α : Type} {E : Panic → Prop} {p : α → Res Bool} {l : List α} (P : α → Prop)
    (h : ∀ x ∈ l, Spec E (p x) (fun b => b = true ↔ P x)) :
    Spec E (position p l) (fun o => match o with
      | none => ∀ x ∈ l, ¬ P x
      | some i => (∃ x, l[i]? = some x ∧ P x) ∧ ∀ j, j < i → ∀ x, l[j]? = some x → ¬ P x) := by
  induction l with
  | nil => simp [position]
  | cons x xs ih =>
    rw [position]
    refine (h x (by simp)).bind fun b hb => ?_
    by_cases hb' : b = true
    · rw [if_pos hb']
      exact ⟨⟨x, rfl, hb.mp hb'⟩, fun j hj => absurd hj (Nat.not_lt_zero _)⟩
    · rw [if_neg hb']
      refine (ih fun y hy => h y (by simp [hy])).bind ?_
      rintro (_ | i) hi
      · intro y hy
        rcases List.mem_cons.mp hy with rfl | hy
        · exact fun hP => hb' (hb.mpr hP)
        · exact hi y hy
      · refine ⟨by simpa using hi.1, fun j hj y hy => ?_⟩
        cases j with
        | zero => simp at hy; subst hy; exact fun hP => hb' (hb.mpr hP)
        | succ j => exact hi.2 j (by simpa using hj) y (by simpa using hy)

omit [StabilityCmp F] [LawfulPivot F K] in
theorem Is.firstNonzero [StabilityCmp F] [LawfulPivot F K] (h : M.Is n m a) {r : ℕ} (hr : r < n) :
    Spec (allowed F) (M.firstNonzero r) (fun o => match o with
      | none => ∀ j, j < m → a r j = 0
      | some c => c < m ∧ a r c ≠ 0 ∧ ∀ j, j < c → a r j = 0) := by
  obtain ⟨l, hl, hlen, hx⟩ := h.getRowIter hr
  unfold Mat.firstNonzero Mat.getRow
  rw [hl]
  simp only [bind_ok, pure_eq, Mat.fromIter]
  have hmem : ∀ x ∈ l, ∃ j, j < m ∧ l[j]? = some x ∧ wf x ∧ val x = a r j := by
    intro x hxl
    obtain ⟨j, hj⟩ := List.getElem?_of_mem hxl
    have hjm : j < m := by rw [← hlen]; exact (List.getElem?_eq_some_iff.mp hj).1
    obtain ⟨x', h1, _, h2⟩ := hx j hjm
    rw [hj] at h1; cases h1
    exact ⟨j, hjm, hj, h2⟩
  refine (position_spec (fun x => val x ≠ (0 : K)) ?_).imp ?_
  · intro x hxl
    obtain ⟨j, _, _, hw, _⟩ := hmem x hxl
    refine (LawfulPivot.eps_zero x hw).bind fun b hb => ?_
    cases b <;> simp_all
  · rintro (_ | c) ho
    · intro j hj
      obtain ⟨x, h1, _, _, h2⟩ := hx j hj
      rw [← h2]
      exact not_not.mp (ho x (List.mem_of_getElem? h1))
    · obtain ⟨⟨x, hxc, hx0⟩, ho⟩ := ho
      have hcm : c < m := by rw [← hlen]; exact (List.getElem?_eq_some_iff.mp hxc).1
      refine ⟨hcm, ?_, fun j hj => ?_⟩
      · obtain ⟨x', h1, _, _, h2⟩ := hx c hcm
        rw [hxc] at h1; cases h1
        rw [← h2]; exact hx0
      · obtain ⟨x', h1, _, _, h2⟩ := hx j (by omega)
        rw [← h2]
        exact not_not.mp (ho j hj x' h1)

theorem Is.firstNonzero_ech (h : M.Is n m a) {k : ℕ} {piv : ℕ → ℕ} (he : Ech n m k piv a) {r : ℕ}
    (hr : r < n) :
    Spec (allowed F) (M.firstNonzero r) (fun o => o = if r < k then some (piv r) else none) := by
  refine (h.firstNonzero hr).imp ?_
  rintro (_ | c) ho
  · split
    · rename_i hk
      have := ho (piv r) (he.lt r hk)
      rw [he.one r hk] at this
      exact absurd this one_ne_zero
    · rfl
  · obtain ⟨hc, hne, hlt⟩ := ho
    split
    · rename_i hk
      rcases lt_trichotomy c (piv r) with h1 | h1 | h1
      · exact absurd (he.left r hk c h1) hne
      · rw [h1]
      · have := hlt _ h1
        rw [he.one r hk] at this
        exact absurd this one_ne_zero
    · rename_i hk
      exact absurd (he.below r (by omega) hr c hc) hne

theorem Is.zeroRows_ech (h : M.Is n m a) {k : ℕ} {piv : ℕ → ℕ} (he : Ech n m k piv a) :
    Spec (allowed F) M.zeroRows (fun z => z = n - k) := by
  unfold Mat.zeroRows
  rw [h.rows]
  refine (foldlM_range_spec (fun r z => z = r - k) (Nat.zero_sub k).symm ?_)
  intro r z hr hz
  refine (h.firstNonzero_ech he hr).bind ?_
  rintro _ rfl
  split
  · rename_i heq
    have : ¬ r < k := by intro h; rw [if_pos h] at heq; cases heq
    change z + 1 = r + 1 - k
    omega
  · rename_i heq
    have : r < k := by by_contra h; rw [if_neg h] at heq; cases heq
    change z = r + 1 - k
    omega

end Mat

/-! ### `row_echelon` -/

namespace Form
variable {f : Form F} {M : Mat F} {n m : ℕ} {a b : ℕ → ℕ → K}

/-- The form `f` of the matrix `a`: its `b` is `b`, and its `p` is invertible with `p * a = b`. -/
structure Is (f : Form F) (M : Mat F) (n m : ℕ) (a b : ℕ → ℕ → K) : Prop where
  original : f.original = M
  b_is : f.b.Is n m b
  p_is : ∃ p, f.p.Is n n p ∧ IsUnit (mat n n p) ∧ mat n n p * mat n m a = mat n m b

omit [EpsilonEquality F] [StabilityCmp F] [LawfulPivot F K] in
theorem Is.congr (h : f.Is M n m a b) {b' : ℕ → ℕ → K} (hb : ∀ i j, i < n → j < m → b i j = b' i j) :
    f.Is M n m a b' :=
  ⟨h.original, h.b_is.congr hb, by rw [← mat_congr hb]; exact h.p_is⟩

omit [EpsilonEquality F] [StabilityCmp F] [LawfulPivot F K] in
/-- Applying the same row operation `E` to `p` and `b`. -/
theorem Is.op {p b' p' : ℕ → ℕ → K} {f' : Form F} (ho : f'.original = M) (hb' : f'.b.Is n m b')
    (hp' : f'.p.Is n n p') {E : Matrix (Fin n) (Fin n) K} (hE : IsUnit E)
    (hu : IsUnit (mat n n p)) (hpa : mat n n p * mat n m a = mat n m b)
    (h1 : mat n n p' = E * mat n n p) (h2 : mat n m b' = E * mat n m b) : f'.Is M n m a b' :=
  ⟨ho, hb', p', hp', by rw [h1]; exact hE.mul hu, by rw [h1, h2, Matrix.mul_assoc, hpa]⟩

theorem Is.permuteRows (h : f.Is M n m a b) {s t : ℕ} (hs : s < n) (ht : t < n) :
    Spec (allowed F) (f.permuteRows s t)
      (fun f' => f'.Is M n m a (fun i j => b (Equiv.swap s t i) j)) := by
  obtain ⟨p, hp, hu, hpa⟩ := h.p_is
  obtain ⟨E, hE, hEq⟩ := rowSwap (K := K) hs ht
  refine (hp.permuteRows hs ht).bind fun p' hp' => ?_
  refine (h.b_is.permuteRows hs ht).bind fun b' hb' => ?_
  exact Is.op h.original hb' hp' hE hu hpa (hEq n p) (hEq m b)

theorem Is.scaleRow (h : f.Is M n m a b) {r : ℕ} {v : F} (hr : r < n) (hv : wf v)
    (hv0 : val v ≠ (0 : K)) :
    Spec (allowed F) (f.scaleRow r v)
      (fun f' => f'.Is M n m a (fun i j => if i = r then val v * b r j else b i j)) := by
  obtain ⟨p, hp, hu, hpa⟩ := h.p_is
  obtain ⟨E, hE, hEq⟩ := rowScale (K := K) (n := n) (r := r) hv0
  refine (hp.scaleRow hr hv).bind fun p' hp' => ?_
  refine (h.b_is.scaleRow hr hv).bind fun b' hb' => ?_
  exact Is.op h.original hb' hp' hE hu hpa (hEq n p) (hEq m b)

theorem Is.replaceStep (h : f.Is M n m a b) {r c r2 : ℕ} (hr : r < n) (hr2 : r2 < n) (hne : r ≠ r2)
    (hc : c < m) :
    Spec (allowed F) (Form.replaceStep r c f r2)
      (fun f' => f'.Is M n m a (fun i j => if i = r2 then b r2 j + b r j * (0 - b r2 c) else b i j)) := by
  obtain ⟨p, hp, hu, hpa⟩ := h.p_is
  refine (h.b_is.get_spec hr2 hc).bind fun x hx => ?_
  refine (sub_spec _ x wf_zero hx.1).bind' fun s hs hs' => ?_
  refine (hp.replaceRow hr hr2 hs'.1).bind fun p' hp' => ?_
  rw [hs, bind_ok]
  refine (h.b_is.replaceRow hr hr2 hs'.1).bind fun b' hb' => ?_
  obtain ⟨E, hE, hEq⟩ := rowReplace (K := K) (c := val s) hr hr2 hne
  have := Is.op h.original (f' := ⟨p', b', f.original⟩) hb' hp' hE hu hpa (hEq n p) (hEq m b)
  rw [hs'.2, val_zero, hx.2] at this
  exact this

theorem Is.replaceColUnderRow (h : f.Is M n m a b) {r c : ℕ} (hr : r < n) (hc : c < m) :
    Spec (allowed F) (f.replaceColUnderRow r c)
      (fun f' => f'.Is M n m a (fun i j => if r < i then b i j + b r j * (0 - b i c) else b i j)) := by
  unfold Form.replaceColUnderRow
  rw [h.b_is.rows]
  refine (foldlM_range'_spec (fun k f' => f'.Is M n m a
    (fun i j => if r < i ∧ i < k then b i j + b r j * (0 - b i c) else b i j)) ?_ ?_).imp fun f' hf' => ?_
  · exact h.congr fun i j _ _ => by rw [if_neg (by omega)]
  · intro k f' hk hk' hf'
    refine (hf'.replaceStep hr (by omega) (by omega) hc).imp fun f'' hf'' => hf''.congr fun i j hi hj => ?_
    by_cases hik : i = k
    · subst hik
      have h1 : ¬ (r < i ∧ i < i) := by omega
      have h2 : ¬ (r < r ∧ r < i) := by omega
      have h3 : r < i ∧ i < i + 1 := by omega
      rw [if_pos rfl, if_neg h1, if_neg h2, if_neg h1, if_pos h3]
    · rw [if_neg hik]
      have : (r < i ∧ i < k) ↔ (r < i ∧ i < k + 1) := by omega
      simp only [this]
  · refine hf'.congr fun i j hi hj => ?_
    have : (r < i ∧ i < r + 1 + (n - (r + 1))) ↔ r < i := by omega
    simp only [this]

theorem Is.replaceColAboveRow (h : f.Is M n m a b) {r c : ℕ} (hr : r < n) (hc : c < m) :
    Spec (allowed F) (f.replaceColAboveRow r c)
      (fun f' => f'.Is M n m a (fun i j => if i < r then b i j + b r j * (0 - b i c) else b i j)) := by
  unfold Form.replaceColAboveRow
  refine (foldlM_range_spec (fun k f' => f'.Is M n m a
    (fun i j => if i < k then b i j + b r j * (0 - b i c) else b i j)) ?_ ?_).imp fun f' hf' => hf'
  · exact h.congr fun i j _ _ => by rw [if_neg (by omega)]
  · intro k f' hk hf'
    refine (hf'.replaceStep hr (by omega) (by omega) hc).imp fun f'' hf'' => hf''.congr fun i j hi hj => ?_
    by_cases hik : i = k
    · subst hik
      have h2 : ¬ r < i := by omega
      simp only [if_true, h2, if_false, lt_irrefl, Nat.lt_succ_self]
    · rw [if_neg hik]
      have : i < k ↔ i < k + 1 := by omega
      simp only [this]

end Form

namespace Mat
variable {M : Mat F} {n m : ℕ} {a : ℕ → ℕ → K}

theorem rowEchelonFor_spec {f : Form F} {b : ℕ → ℕ → K} {r : ℕ} {piv : ℕ → ℕ} (c l : ℕ)
    (hcl : c + l = m) (h : f.Is M n m a b) (he : Ech n c r piv b) :
    Spec (allowed F) (Mat.rowEchelonFor n (List.range' c l) r f)
      (fun f' => ∃ b' k piv', f'.Is M n m a b' ∧ Ech n m k piv' b') := by
  induction l generalizing c f b r piv with
  | zero =>
    have : c = m := by omega
    subst this
    exact ⟨b, r, piv, h, he⟩
  | succ l ih =>
    rw [List.range'_succ, Mat.rowEchelonFor]
    have hle := he.le
    by_cases hrn : r ≥ n
    · rw [if_pos hrn]
      have : r = n := by omega
      subst this
      exact ⟨b, _, piv, h, he.full (by omega)⟩
    · rw [if_neg hrn]
      push Not at hrn
      have hc : c < m := by omega
      refine (h.b_is.getStable hc hrn).bind ?_
      rintro (_ | ⟨s, v⟩) ho
      · exact ih (c + 1) (by omega) h (he.skip ho)
      · obtain ⟨hs, hsn, hv, hva, hne⟩ := ho
        refine (h.permuteRows hrn hsn).bind fun f₁ hf₁ => ?_
        refine (div_spec _ v wf_one hv (by rw [hva]; exact hne)).bind fun w hw => ?_
        have hwv : val w = 1 / b s c := by rw [hw.2, val_one, hva]
        refine (hf₁.scaleRow hrn hw.1 (by rw [hwv]; exact one_div_ne_zero hne)).bind fun f₂ hf₂ => ?_
        refine (hf₂.replaceColUnderRow hrn hc).bind fun f₃ hf₃ => ?_
        rw [hwv] at hf₃
        exact ih (c + 1) (by omega) hf₃ (he.step hs hsn hne)

theorem Is.rowEchelon (h : M.Is n m a) (hnn : n * n < 18446744073709551616) :
    Spec (allowed F) M.rowEchelon
      (fun f => ∃ b k piv, f.Is M n m a b ∧ Ech n m k piv b) := by
  unfold Mat.rowEchelon
  rw [h.rows, h.cols, List.range_eq_range']
  refine rowEchelonFor_spec (b := a) (piv := fun _ => 0) 0 m (Nat.zero_add m) ?_ (Ech.zero n _ a)
  have hone : mat n n (fun i j => if i = j then (1 : K) else 0) = 1 := by
    ext i j
    simp only [mat, Matrix.one_apply, Fin.ext_iff]
  exact ⟨rfl, h, _, is_identity h.rows_lt hnn, by rw [hone]; exact isUnit_one,
    by rw [hone, Matrix.one_mul]⟩

end Mat

/-! ### `to_rref` -/

/-- Reduced row echelon form: moreover the pivot is the only nonzero entry of its column. -/
structure REch (n m k : ℕ) (piv : ℕ → ℕ) (a : ℕ → ℕ → K) : Prop extends Ech n m k piv a where
  above : ∀ r, r < k → ∀ i, i < r → a i (piv r) = 0

theorem REch.col {n m k : ℕ} {piv : ℕ → ℕ} {a : ℕ → ℕ → K} (h : REch n m k piv a) {i r : ℕ}
    (hi : i < n) (hr : r < k) : a i (piv r) = if i = r then 1 else 0 := by
  split
  · rename_i he; subst he; exact h.one i hr
  · rename_i hne
    rcases lt_or_gt_of_ne hne with hlt | hgt
    · exact h.above r hr i hlt
    · by_cases hk : i < k
      · exact h.left i hk _ (h.mono r i hgt hk)
      · exact h.below i (by omega) hi _ (h.lt r hr)

namespace Form
variable {f : Form F} {M : Mat F} {n m k : ℕ} {a b : ℕ → ℕ → K} {piv : ℕ → ℕ}

theorem Is.toRref (h : f.Is M n m a b) (he : Ech n m k piv b) :
    Spec (allowed F) f.toRref (fun f' => ∃ b', f'.Is M n m a b' ∧ REch n m k piv b') := by
  unfold Form.toRref
  rw [h.b_is.rows]
  refine (foldlM_range'_rev_spec (fun q f' => ∃ b', f'.Is M n m a b' ∧ Ech n m k piv b' ∧
    ∀ r, q ≤ r → r < k → ∀ i, i < r → b' i (piv r) = 0) ?_ ?_).imp ?_
  · refine ⟨b, h, he, fun r h1 h2 => ?_⟩
    have := he.le
    intro i hi
    omega
  · rintro r f' hr hrn ⟨b', hf', he', hz⟩
    refine (hf'.b_is.firstNonzero_ech he' (by omega)).bind ?_
    rintro _ rfl
    by_cases hk : r < k
    · rw [if_pos hk]
      refine (hf'.replaceColAboveRow (by omega) (he'.lt r hk)).imp fun f'' hf'' => ⟨_, hf'', ?_, ?_⟩
      · refine ⟨he'.le, he'.lt, he'.mono, ?_, ?_, ?_⟩
        · intro i hi
          split
          · rename_i hir
            rw [he'.left r hk _ (he'.mono i r hir hk), he'.one i hi]; ring
          · exact he'.one i hi
        · intro i hi j hj
          split
          · rename_i hir
            rw [he'.left r hk j (hj.trans (he'.mono i r hir hk)), he'.left i hi j hj]; ring
          · exact he'.left i hi j hj
        · intro i hi hin j hj
          rw [if_neg (by omega)]
          exact he'.below i hi hin j hj
      · intro r' hr' hk' i hi
        rcases Nat.eq_or_lt_of_le hr' with rfl | hlt
        · rw [if_pos hi, he'.one r hk]; ring
        · split
          · rw [hz r' hlt hk' r (by omega), hz r' hlt hk' i hi]; ring
          · exact hz r' hlt hk' i hi
    · rw [if_neg hk]
      exact ⟨b', hf', he', fun r' hr' hk' => hz r' (by omega) hk'⟩
  · rintro f' ⟨b', hf', he', hz⟩
    exact ⟨b', hf', { he' with above := fun r hr i hi => hz r (by omega) hr i hi }⟩

theorem Is.rank (h : f.Is M n m a b) (he : Ech n m k piv b) :
    Spec (allowed F) f.rank (fun x => x = k) := by
  unfold Form.rank
  refine (h.b_is.zeroRows_ech he).bind ?_
  rintro _ rfl
  have := he.le
  unfold Usize.sub
  rw [h.b_is.rows, if_pos (by omega)]
  change n - (n - k) = k
  omega

theorem Is.nullity (h : f.Is M n m a b) (he : Ech n m k piv b) :
    Spec (allowed F) f.nullity (fun x => x = m - k) := by
  unfold Form.nullity
  refine (h.rank he).bind ?_
  rintro _ rfl
  unfold Usize.sub
  rw [h.b_is.cols, if_pos he.le_cols]
  exact rfl

theorem Is.boundVariables (h : f.Is M n m a b) (he : Ech n m k piv b) :
    Spec (allowed F) f.boundVariables (fun l => l.Nodup ∧ ∀ c, c ∈ l ↔ ∃ r, r < k ∧ piv r = c) := by
  unfold Form.boundVariables
  rw [h.b_is.rows]
  refine (mapM_spec (P := fun r o => o = if r < k then some (piv r) else none) fun r hr =>
    h.b_is.firstNonzero_ech he (by simpa using hr)).bind fun l hl => ?_
  refine ⟨List.nodup_dedup _, fun c => ?_⟩
  have hl' : l = (List.range n).map fun r => if r < k then some (piv r) else none := by
    rw [List.forall₂_iff_get] at hl
    apply List.ext_getElem
    · rw [← hl.1]; simp
    · intro i h1 h2
      have := hl.2 i (by simpa using h2) h1
      simpa using this
  rw [List.mem_dedup, hl']
  simp only [List.mem_filterMap, List.mem_map, List.mem_range, id]
  have := he.le
  constructor
  · rintro ⟨o, ⟨r, hr, rfl⟩, ho⟩
    split at ho
    · rename_i hk; exact ⟨r, hk, by simpa using ho⟩
    · cases ho
  · rintro ⟨r, hr, rfl⟩
    exact ⟨some (piv r), ⟨r, by omega, by rw [if_pos hr]⟩, rfl⟩

end Form
end Verif
