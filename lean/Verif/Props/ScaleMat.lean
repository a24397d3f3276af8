import Verif.Props.PowersOfTwo
import Verif.Proofs.ScaleMat
import Mathlib.Tactic.IntervalCases

/-!
# Property C233: elimination over `f32` and `f64` on a matrix with columns scaled by powers of two
-/

namespace Verif
open Res LinAlg

namespace Flt
open Fmt
variable [Fmt]

/-- The comparison of `x` and `y` with `EPSILON`, with a panic `outOfRange` if the verdict could be changed by a factor
between `2^(-K)` and `2^K` for the difference. -/
@[reducible] def watchedEps (K : ℕ) : EpsilonEquality Flt where
  epsilonEquals x y := match sub x y with
    | fin _ n => if n * 2 ^ K < epsUnits then .ok true else if epsUnits * 2 ^ K ≤ n then .ok false
      else .panic outOfRange
    | _ => .panic outOfRange

theorem lt_EPSILON (s : Bool) (n : ℕ) : lt (abs (fin s n)) EPSILON = decide (n < epsUnits) := by
  change ((some (compare (n : ℤ) (epsUnits : ℤ))) == some Ordering.lt) = _
  rw [Bool.eq_iff_iff]
  simp [compare_lt_iff_lt]

theorem watchedEps_sim (K : ℕ) (x y : Flt) :
    Sim (· = outOfRange) ((watchedEps K).epsilonEquals x y) (epsilonEquality.epsilonEquals x y) := by
  change Sim _ (match sub x y with
    | fin _ n => if n * 2 ^ K < epsUnits then .ok true else if epsUnits * 2 ^ K ≤ n then .ok false
      else .panic outOfRange
    | _ => .panic outOfRange) (.ok (lt (abs (sub x y)) EPSILON))
  have hK : 1 ≤ 2 ^ K := Nat.one_le_two_pow
  split
  · rename_i s n h
    rw [h, lt_EPSILON]
    split
    · rename_i h1
      rw [decide_eq_true (lt_of_le_of_lt (Nat.le_mul_of_pos_right n hK) h1)]
      exact Sim.refl _
    · split
      · rename_i h1
        rw [decide_eq_false (not_lt.mpr ((Nat.le_mul_of_pos_right _ hK).trans h1))]
        exact Sim.refl _
      · exact Or.inr ⟨_, rfl, rfl⟩
  · exact Or.inr ⟨_, rfl, rfl⟩

theorem TimesPow2.neg {u : Multiplicative ℤ} {x y : Flt} (h : TimesPow2 u x y) : TimesPow2 u (neg x) (neg y) := by
  obtain ⟨s, n, n', rfl, rfl, hn⟩ := h
  exact ⟨_, n, n', rfl, rfl, hn⟩

theorem sub_pow2 {u : Multiplicative ℤ} {x y x' y' : Flt} (h : TimesPow2 u x y) (h' : TimesPow2 u x' y') :
    ∀ s n t m, sub x x' = fin s n → sub y y' = fin t m → TimesPow2 u (sub x x') (sub y y') :=
  add_pow2 h h'.neg

/-- Elimination over floats respects powers of two, when the range and the comparisons are watched. -/
theorem scaleOps (b : Build) (powi : Flt → Int → Flt) (K : ℕ) :
    letI := ranged b powi
    letI := watchedEps K
    ScaleOps (F := Flt) (G := Flt) (· = outOfRange) TimesPow2 fun u => |u.toAdd| ≤ K := by
  let _ := ranged b powi
  let _ := watchedEps K
  have hw := ranged_pow2 b powi
  refine { hw with sub := ?_, eps := ?_, stab := ?_, nonzero := ?_ }
  · intro u x y x' y' h h'
    exact kept_near fun s n t m e1 e2 _ => sub_pow2 h h' s n t m e1 e2
  · intro u x y hu h
    have hz : TimesPow2 u zero zero := hw.zero u
    change Near _ _ (match sub x zero with
      | fin _ n => if n * 2 ^ K < epsUnits then .ok true else if epsUnits * 2 ^ K ≤ n then .ok false
        else .panic outOfRange
      | _ => .panic outOfRange) (match sub y zero with
      | fin _ n => if n * 2 ^ K < epsUnits then .ok true else if epsUnits * 2 ^ K ≤ n then .ok false
        else .panic outOfRange
      | _ => .panic outOfRange)
    match hx : sub x zero, hy : sub y zero with
    | nan, _ => exact .inl ⟨_, rfl, rfl⟩
    | inf _, _ => exact .inl ⟨_, rfl, rfl⟩
    | fin _ _, nan => exact .inr (.inl ⟨_, rfl, rfl⟩)
    | fin _ _, inf _ => exact .inr (.inl ⟨_, rfl, rfl⟩)
    | fin s n, fin t m =>
      have := sub_pow2 h hz _ _ _ _ hx hy
      rw [hx, hy] at this
      obtain ⟨_, _, _, e1, e2, hn⟩ := this
      cases e1
      cases e2
      rw [abs_le] at hu
      have l1 : m ≤ n * 2 ^ K := by
        have : (m : ℚ) ≤ n * 2 ^ K := by
          rw [hn, ← zpow_natCast]
          exact mul_le_mul_of_nonneg_left (zpow_le_zpow_right₀ one_le_two hu.2) (Nat.cast_nonneg _)
        exact_mod_cast this
      have l2 : n ≤ m * 2 ^ K := by
        have : (n : ℚ) ≤ m * 2 ^ K := by
          rw [hn, mul_assoc, ← zpow_natCast, ← zpow_add₀ two_ne_zero]
          exact le_mul_of_one_le_right (Nat.cast_nonneg _) (one_le_zpow₀ one_le_two (by omega))
        exact_mod_cast this
      have hK : 1 ≤ 2 ^ K := Nat.one_le_two_pow
      have hek := Nat.le_mul_of_pos_right epsUnits hK
      dsimp only
      by_cases h1 : n * 2 ^ K < epsUnits
      · rw [if_pos h1]
        by_cases h2 : m * 2 ^ K < epsUnits
        · rw [if_pos h2]; exact Near.ok rfl
        · rw [if_neg h2, if_neg (by omega)]; exact .inr (.inl ⟨_, rfl, rfl⟩)
      · rw [if_neg h1]
        by_cases h3 : epsUnits * 2 ^ K ≤ n
        · rw [if_pos h3]
          rw [if_neg (by omega)]
          by_cases h4 : epsUnits * 2 ^ K ≤ m
          · rw [if_pos h4]; exact Near.ok rfl
          · rw [if_neg h4]; exact .inr (.inl ⟨_, rfl, rfl⟩)
        · rw [if_neg h3]; exact .inl ⟨_, rfl, rfl⟩
  · intro u x y x' y' h h'
    refine Near.ok ?_
    obtain ⟨s, n, n', rfl, rfl, hn⟩ := h
    obtain ⟨t, m, m', rfl, rfl, hm⟩ := h'
    change some (compare (n : ℤ) (m : ℤ)) = some (compare (n' : ℤ) (m' : ℤ))
    have two : (0 : ℚ) < 2 ^ u.toAdd := by positivity
    have key : ∀ a b : ℕ, compare (a : ℤ) b = compare (a : ℚ) b := fun a b => by
      rcases lt_trichotomy a b with h | rfl | h
      · rw [compare_lt_iff_lt.mpr (by exact_mod_cast h), compare_lt_iff_lt.mpr (by exact_mod_cast h)]
      · simp
      · rw [compare_gt_iff_gt.mpr (by exact_mod_cast h), compare_gt_iff_gt.mpr (by exact_mod_cast h)]
    rw [key, key, hn, hm]
    congr 1
    rcases lt_trichotomy (n : ℚ) m with h | h | h
    · rw [compare_lt_iff_lt.mpr h, compare_lt_iff_lt.mpr (mul_lt_mul_of_pos_right h two)]
    · rw [h]; simp
    · rw [compare_gt_iff_gt.mpr h, compare_gt_iff_gt.mpr (mul_lt_mul_of_pos_right h two)]
  · intro x hx
    cases hb : RField.beq x RField.zero with
    | false => rfl
    | true =>
      have hb' : Flt.eq x zero = true := hb
      rw [eq_zero_iff] at hb'
      obtain ⟨s, rfl⟩ := hb'
      have hd : ∃ t, sub (fin s 0) zero = fin t 0 := by cases s <;> exact ⟨_, rfl⟩
      obtain ⟨t, ht⟩ := hd
      have hx' : (match sub (fin s 0) zero with
        | fin _ n => if n * 2 ^ K < epsUnits then .ok true else if epsUnits * 2 ^ K ≤ n then .ok false
          else .panic outOfRange
        | _ => .panic outOfRange) = Res.ok false := hx
      rw [ht] at hx'
      dsimp only at hx'
      rw [if_pos (by rw [Nat.zero_mul]; unfold epsUnits; positivity)] at hx'
      cases hx'

end Flt

open Flt Fmt

/-- `M'` is `M` with the column `j` multiplied by `2^(e j)`; all entries are finite. -/
def Mat.ColsByPow2 [Fmt] (n m : ℕ) (e : ℕ → ℤ) (M M' : Mat Flt) : Prop :=
  MW TimesPow2 n m (fun _ j => .ofAdd (e j)) M M'

section
variable [Fmt] (b : Build) (powi : Flt → Int → Flt) {n m : ℕ} (K : ℕ) (e : ℕ → ℤ)

/-- C233, `lu`: unless a result leaves the range or a comparison with `EPSILON` is close, the same permutation is
returned, and the columns of `l` and the rows and columns of `u` differ by powers of two; nothing is rounded
differently. -/
theorem C233_lu_partial (M M' : Mat Flt) (h : M.ColsByPow2 n m e M') (hK : ∀ j, j < m → |e j| ≤ K)
    (hn : n * n < 18446744073709551616) :
    letI R := ranged b powi
    letI D := field b powi
    @Mat.lu _ R (watchedEps K) stability M = .panic outOfRange ∨
    @Mat.lu _ R (watchedEps K) stability M' = .panic outOfRange ∨
    Rel (fun d d' => ∃ (l : List ℕ) (κ : ℕ → ℤ), d.p = @Mat.permutationFromVec _ D l ∧
        d'.p = @Mat.permutationFromVec _ D l ∧ l.length = n ∧
        MW TimesPow2 n n (fun _ j => .ofAdd (κ j)) d.l d'.l ∧
        MW TimesPow2 n m (fun i j => .ofAdd (e j - κ i)) d.u d'.u)
      (@Mat.lu _ D epsilonEquality stability M) (@Mat.lu _ D epsilonEquality stability M') := by
  let _ := ranged b powi
  let _ := watchedEps K
  have hs := ranged_sim b powi
  have h' : MW TimesPow2 n m (fun _ j => 1 * Multiplicative.ofAdd (e j)) M M' := by
    simpa only [one_mul] using show MW _ _ _ _ _ _ from h
  refine real_of_ranged (Near.imp (Mat.lu_scale (scaleOps b powi K) h' ?_ hn) ?_)
    (Mat.lu_sim hs (watchedEps_sim K) (fun _ _ => Sim.refl _) _)
    (Mat.lu_sim hs (watchedEps_sim K) (fun _ _ => Sim.refl _) _)
  · intro j hj
    rw [one_mul]; exact hK j hj
  · rintro d d' ⟨l, κ, h1, h2, h3, h4, h5⟩
    refine ⟨l, fun i => (κ i).toAdd, h1, h2, h3, ?_, ?_⟩
    · simpa only [one_mul, ofAdd_toAdd] using h4
    · simpa only [ofAdd_sub, ofAdd_toAdd, div_eq_inv_mul] using h5

/-- C233, `row_echelon`: the row `i` of the form is multiplied by `2^(ρ i)` besides the factors of the columns; `ρ i` is
zero for a row without pivot and undoes the factor of the column of the pivot otherwise. -/
theorem C233_row_echelon_partial (M M' : Mat Flt) (h : M.ColsByPow2 n m e M') (hK : ∀ j, j < m → |e j| ≤ K)
    (hn : n * n < 18446744073709551616) :
    letI R := ranged b powi
    letI D := field b powi
    @Mat.rowEchelon _ R (watchedEps K) stability M = .panic outOfRange ∨
    @Mat.rowEchelon _ R (watchedEps K) stability M' = .panic outOfRange ∨
    Rel (fun f g => ∃ ρ : ℕ → ℤ, (∀ i, i < n → ρ i = 0 ∨ ∃ c, c < m ∧ ρ i = -e c) ∧
        MW TimesPow2 n m (fun i j => .ofAdd (ρ i + e j)) f.b g.b ∧
        MW TimesPow2 n n (fun i _ => .ofAdd (ρ i)) f.p g.p)
      (@Mat.rowEchelon _ D epsilonEquality stability M) (@Mat.rowEchelon _ D epsilonEquality stability M') := by
  let _ := ranged b powi
  let _ := watchedEps K
  have hs := ranged_sim b powi
  have h' : MW TimesPow2 n m (fun _ j => 1 * Multiplicative.ofAdd (e j)) M M' := by
    simpa only [one_mul] using show MW _ _ _ _ _ _ from h
  refine real_of_ranged (Near.imp (Mat.rowEchelon_scale (scaleOps b powi K) h' ?_ hn) ?_)
    (Mat.rowEchelon_sim hs (watchedEps_sim K) (fun _ _ => Sim.refl _) _)
    (Mat.rowEchelon_sim hs (watchedEps_sim K) (fun _ _ => Sim.refl _) _)
  · intro j hj
    rw [one_mul]; exact hK j hj
  · rintro f g ⟨ρ, h1, h2⟩
    refine ⟨fun i => (ρ i).toAdd, fun i hi => ?_, ?_, ?_⟩
    · rcases h2 i hi with h | ⟨c, hc, h⟩
      · exact .inl (by dsimp only; rw [h]; rfl)
      · exact .inr ⟨c, hc, by dsimp only; rw [h]; rfl⟩
    · simpa only [ofAdd_add, ofAdd_toAdd] using h1.b
    · simpa only [inv_one, mul_one, ofAdd_toAdd] using h1.p

/-- C233, `rank` and `nullity` of a matrix multiplied by `2^k`. -/
theorem C233_rank_partial (k : ℤ) (M M' : Mat Flt) (h : M.ColsByPow2 n m (fun _ => k) M') (hK : |k| ≤ K)
    (hn : n * n < 18446744073709551616) :
    letI R := ranged b powi
    letI D := field b powi
    letI w := watchedEps K
    letI rn (F : RField Flt) (E : EpsilonEquality Flt) (M : Mat Flt) : Res (ℕ × ℕ) := do
      let f ← @Mat.rowEchelon _ F E stability M
      let r ← @Form.rank _ F E f
      let s ← @Form.nullity _ F E f
      pure (r, s)
    rn R w M = .panic outOfRange ∨ rn R w M' = .panic outOfRange ∨
      rn D epsilonEquality M = rn D epsilonEquality M' := by
  let _ := ranged b powi
  let _ := watchedEps K
  have hs := ranged_sim b powi
  have O := scaleOps b powi K
  have h' : MW TimesPow2 n m (fun _ j => 1 * (fun _ => Multiplicative.ofAdd k) j) M M' := by
    simpa only [one_mul] using show MW _ _ _ _ _ _ from h
  have hsim : ∀ M : Mat Flt, Sim (· = outOfRange) (do
      let f ← M.rowEchelon
      let r ← f.rank
      let s ← f.nullity
      pure (r, s) : Res (ℕ × ℕ)) (do
      let f ← @Mat.rowEchelon _ (field b powi) epsilonEquality stability M
      let r ← @Form.rank _ (field b powi) epsilonEquality f
      let s ← @Form.nullity _ (field b powi) epsilonEquality f
      pure (r, s)) := fun M =>
    (Mat.rowEchelon_sim hs (watchedEps_sim K) (fun _ _ => Sim.refl _) _).bind fun f =>
      (Form.rank_sim hs (watchedEps_sim K) _).bind fun r =>
        (Form.nullity_sim hs (watchedEps_sim K) _).bind fun s => Sim.refl _
  have hnear : Near (· = outOfRange) (fun x y : ℕ × ℕ => x = y) (do
      let f ← M.rowEchelon
      let r ← f.rank
      let s ← f.nullity
      pure (r, s)) (do
      let f ← M'.rowEchelon
      let r ← f.rank
      let s ← f.nullity
      pure (r, s)) := by
    refine (Mat.rowEchelon_scale O h' (fun _ _ => by rw [one_mul]; exact hK) hn).bind ?_
    rintro f g ⟨ρ, h1, h2⟩
    have hT : ∀ i j, i < n → j < m → |(ρ i * Multiplicative.ofAdd k).toAdd| ≤ K := fun i j hi _ => by
      rcases h2 i hi with h | ⟨c, hc, h⟩
      · rw [h, one_mul]; exact hK
      · rw [h, inv_mul_cancel]; simp
    refine (h1.rank_scale O hT).bind ?_
    rintro r _ rfl
    refine (h1.nullity_scale O hT).bind ?_
    rintro s _ rfl
    exact Near.ok rfl
  rcases real_of_ranged hnear (hsim M) (hsim M') with h | h | h
  · exact .inl h
  · exact .inr (.inl h)
  · exact .inr (.inr h.eq)

/-- The matrix with the one entry `EPSILON / 2`, and `2^sig` times it. -/
theorem cols_half : (⟨[.fin false (epsUnits / 2)], 1, 1⟩ : Mat Flt).ColsByPow2 1 1 (fun _ => (sig : ℤ))
    ⟨[.fin false (unit / 2)], 1, 1⟩ := by
  let _ := Flt.field .debug (fun _ _ => Flt.nan)
  have h : ∀ l : List Flt, l.length = 1 → Mat.Shape (⟨l, 1, 1⟩ : Mat Flt) 1 1 := fun l h =>
    ⟨rfl, rfl, h, by decide, by decide, by decide⟩
  refine ⟨_, _, (h _ rfl).has, (h _ rfl).has, fun i j hi hj => ?_⟩
  interval_cases i
  interval_cases j
  refine ⟨false, epsUnits / 2, unit / 2, rfl, rfl, ?_⟩
  have e : unit / 2 = epsUnits / 2 * 2 ^ sig := by fmt_decide
  rw [e, toAdd_ofAdd, zpow_natCast]
  push_cast
  rfl

/-- C233 is false without the provisos: a matrix may have another rank than its product with a power of two, since an
entry below `EPSILON` counts as zero whatever the size of the others. Nothing is out of range here. -/
theorem C233_refuted : letI D := field b (fun _ _ => Flt.nan)
    ¬ ∀ (k : ℤ) (M M' : Mat Flt), M.ColsByPow2 1 1 (fun _ => k) M' →
      (do let f ← @Mat.rowEchelon _ D epsilonEquality stability M
          @Form.rank _ D epsilonEquality f) =
      (do let f ← @Mat.rowEchelon _ D epsilonEquality stability M'
          @Form.rank _ D epsilonEquality f) := by
  let _ := field b (fun _ _ => Flt.nan)
  intro H
  have h := H _ _ _ cols_half
  have h1 : (do let f ← Mat.rowEchelon (⟨[.fin false (epsUnits / 2)], 1, 1⟩ : Mat Flt); f.rank) = .ok 0 := by
    cases b <;> fmt_decide
  have h2 : (do let f ← Mat.rowEchelon (⟨[.fin false (unit / 2)], 1, 1⟩ : Mat Flt); f.rank) = .ok 1 := by
    cases b <;> fmt_decide
  rw [h1, h2] at h
  cases h

/-- The first row of the form and the kernel that `compute_kernel` finds. -/
def formKernel (M : Mat Flt) : Res (List Flt × List (List Flt)) :=
  letI := field .debug (fun _ _ => Flt.nan)
  do
    let f ← M.rowEchelon
    let k ← f.computeKernel
    pure (f.b.entries, k.map (·.entries))

/-- C233, the kernel: for `(EPSILON / 2, 2 EPSILON)` the vector `(-1, 1)` is returned, which the matrix takes to
`1.5 EPSILON`, and for `(1/2, 2)` the vector `(-4, 1)` of the kernel of both. -/
theorem C233_kernel :
    formKernel ⟨[.fin false (epsUnits / 2), .fin false (2 * epsUnits)], 1, 2⟩ =
      .ok ([.fin false (unit / 4), one], [[neg one, one]]) ∧
    formKernel ⟨[.fin false (unit / 2), .fin false (2 * unit)], 1, 2⟩ =
      .ok ([one, smallNat 4], [[neg (smallNat 4), one]]) := by
  constructor <;> fmt_decide

/-- `lu` of `(1 3; 3 1)`, and of `(4 6; 12 2)` with four times the first and twice the second column: nothing is out
of range, no comparison is close for `K = 2`, and `1/3` is rounded. -/
theorem C233_run : letI := ranged b (fun _ _ => Flt.nan)
    letI := watchedEps 2
    letI t := div one (smallNat 3)
    letI w := sub (smallNat 3) t
    (⟨[one, smallNat 3, smallNat 3, one], 2, 2⟩ : Mat Flt).lu = .ok ⟨⟨[zero, one, one, zero], 2, 2⟩,
      ⟨[smallNat 3, zero, one, w], 2, 2⟩, ⟨[one, t, zero, one], 2, 2⟩⟩ ∧
    (⟨[smallNat 4, smallNat 6, smallNat 12, smallNat 2], 2, 2⟩ : Mat Flt).lu =
      .ok ⟨⟨[zero, one, one, zero], 2, 2⟩, ⟨[smallNat 12, zero, smallNat 4, add w w], 2, 2⟩,
        ⟨[one, div t (smallNat 2), zero, one], 2, 2⟩⟩ := by
  constructor
  · cases b <;> fmt_decide
  · cases b <;> fmt_decide

example : (⟨[one, smallNat 3, smallNat 3, one], 2, 2⟩ : Mat Flt).ColsByPow2 2 2 (fun j => if j = 0 then 2 else 1)
    ⟨[smallNat 4, smallNat 6, smallNat 12, smallNat 2], 2, 2⟩ := by
  let _ := Flt.field .debug (fun _ _ => Flt.nan)
  have h : ∀ l : List Flt, l.length = 4 → Mat.Shape (⟨l, 2, 2⟩ : Mat Flt) 2 2 := fun l h =>
    ⟨rfl, rfl, h, by decide, by decide, by decide⟩
  refine ⟨_, _, (h _ rfl).has, (h _ rfl).has, fun i j hi hj => ?_⟩
  interval_cases i <;> interval_cases j
  · exact ⟨false, unit, 4 * unit, rfl, rfl, by push_cast; simp; ring⟩
  · exact ⟨false, 3 * unit, 6 * unit, rfl, rfl, by push_cast; simp; ring⟩
  · exact ⟨false, 3 * unit, 12 * unit, rfl, rfl, by push_cast; simp; ring⟩
  · exact ⟨false, unit, 2 * unit, rfl, rfl, by push_cast; simp; ring⟩

end
end Verif
