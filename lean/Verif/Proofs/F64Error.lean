import Verif.Proofs.F64Ops
import Mathlib.Algebra.Order.Ring.Abs
import Mathlib.Algebra.BigOperators.Group.List.Basic

/-!
# Rounding errors of the operations of the model of `f32` and `f64`

The standard model of floating point arithmetic: a finite sum is the exact sum up to a relative error
`2^-prec`, a finite product or quotient the exact one up to a relative error `2^-prec` and an absolute error
`2^-(unitExp + 1)`.
-/

namespace Verif
open Res LinAlg
namespace Flt
open Fmt
variable [Fmt]

/-- The unit roundoff `2^-prec`. -/
def roundoff : ℚ := 1 / 2 ^ (sig + 1)

/-- Half of the smallest positive number, `2^-(unitExp + 1)`. -/
@[irreducible] def tiny : ℚ := 1 / 2 ^ (unitExp + 1)

theorem roundoff_pos : 0 < roundoff := by unfold roundoff; positivity

theorem tiny_eq : tiny = 1 / 2 / unit := by
  unfold tiny unit
  rw [pow_succ]
  push_cast
  field_simp

theorem tiny_pos : 0 < tiny := by
  rw [tiny_eq]; exact div_pos (by norm_num) unit_posQ

theorem roundNat_error (a : ℕ) {b : ℕ} (hb : 0 < b) :
    2 ^ (sig + 1) * |(a : ℤ) - b * roundNat a b| ≤ a ∨
    (2 * |(a : ℤ) - b * roundNat a b| ≤ b ∧ (b = 1 → roundNat a b = a)) := by
  have hB : 0 < b * 2 ^ expo (a / b) := Nat.mul_pos hb (by positivity)
  obtain ⟨h1, h2, -⟩ := rne_bounds (a := a) hB
  have hle : 0 < expo (a / b) → 2 ^ (sig + expo (a / b)) * b ≤ a := fun h =>
    (Nat.le_div_iff_mul_le hb).mp (le_of_expo h)
  rw [roundNat_eq]
  by_cases h : expo (a / b) = 0
  · right
    rw [h] at h1 h2 ⊢
    simp only [pow_zero, mul_one] at h1 h2 ⊢
    refine ⟨?_, ?_⟩
    · generalize rne a b = r at *
      zify at h1 h2
      rcases abs_cases ((a : ℤ) - b * r) with ⟨e, -⟩ | ⟨e, -⟩ <;> rw [e] <;> nlinarith
    · rintro rfl
      exact rne_one a
  · left
    have hle := hle (by omega)
    rw [pow_add] at hle
    generalize rne a (b * 2 ^ expo (a / b)) = r at *
    generalize 2 ^ expo (a / b) = w at *
    zify at h1 h2 hle
    push_cast
    have hk : 2 * |(a : ℤ) - b * (r * w)| ≤ b * w := by
      rcases abs_cases ((a : ℤ) - b * (r * w)) with ⟨e, -⟩ | ⟨e, -⟩ <;> rw [e] <;> nlinarith
    calc 2 ^ (sig + 1) * |(a : ℤ) - b * (r * w)| = 2 ^ sig * (2 * |(a : ℤ) - b * (r * w)|) := by
          rw [pow_succ]; ring
      _ ≤ 2 ^ sig * (b * w) := mul_le_mul_of_nonneg_left hk (by positivity)
      _ ≤ a := le_of_eq_of_le (by ring) hle

/-- The error in terms of the rounded number. -/
theorem roundNat_error' (a : ℕ) {b : ℕ} (hb : 0 < b) :
    2 ^ (sig + 1) * |(a : ℤ) - b * roundNat a b| ≤ b * roundNat a b ∨ (b = 1 → roundNat a b = a) := by
  have hB : 0 < b * 2 ^ expo (a / b) := Nat.mul_pos hb (by positivity)
  obtain ⟨h1, h2, -⟩ := rne_bounds (a := a) hB
  have hle := le_significand a hb
  rw [roundNat_eq]
  by_cases h : expo (a / b) = 0
  · right
    rw [h]
    rintro rfl
    simp [rne_one a]
  · left
    have hle := hle (by omega)
    generalize rne a (b * 2 ^ expo (a / b)) = r at *
    have hw : 0 < b * 2 ^ expo (a / b) := hB
    generalize 2 ^ expo (a / b) = w at *
    have hle2 : 2 ^ sig * (b * w) ≤ r * (b * w) := Nat.mul_le_mul_right _ hle
    zify at h1 h2 hle2
    push_cast
    have hk : 2 * |(a : ℤ) - b * (r * w)| ≤ b * w := by
      rcases abs_cases ((a : ℤ) - b * (r * w)) with ⟨e, -⟩ | ⟨e, -⟩ <;> rw [e] <;> nlinarith
    calc 2 ^ (sig + 1) * |(a : ℤ) - b * (r * w)| = 2 ^ sig * (2 * |(a : ℤ) - b * (r * w)|) := by
          rw [pow_succ]; ring
      _ ≤ 2 ^ sig * (b * w) := mul_le_mul_of_nonneg_left hk (by positivity)
      _ ≤ b * (r * w) := hle2.trans (le_of_eq (by ring))

theorem roundNat_errorQ (a : ℕ) {b : ℕ} (hb : 0 < b) :
    |(a : ℚ) / b - roundNat a b| ≤ roundoff * (a / b) + 1 / 2 ∧
    (b = 1 → |(a : ℚ) / b - roundNat a b| ≤ roundoff * (a / b)) := by
  have hbq : (0 : ℚ) < b := by exact_mod_cast hb
  have e : |(a : ℚ) / b - roundNat a b| = |(a : ℚ) - b * roundNat a b| / b := by
    rw [eq_div_iff hbq.ne', ← abs_of_pos hbq, ← abs_mul, abs_of_pos hbq]
    congr 1
    field_simp
  have h0 : (0 : ℚ) ≤ roundoff * (a / b) := by
    have := roundoff_pos; positivity
  rcases roundNat_error a hb with h | ⟨h, h1⟩
  · have hq : (2 : ℚ) ^ (sig + 1) * |(a : ℚ) - b * roundNat a b| ≤ a := by exact_mod_cast h
    have : |(a : ℚ) / b - roundNat a b| ≤ roundoff * (a / b) := by
      rw [e, roundoff, ← mul_div_assoc]
      refine div_le_div_of_nonneg_right ?_ hbq.le
      rw [one_div_mul_eq_div, le_div_iff₀ (by positivity), mul_comm]
      exact hq
    exact ⟨by linarith, fun _ => this⟩
  · have hq : (2 : ℚ) * |(a : ℚ) - b * roundNat a b| ≤ b := by exact_mod_cast h
    refine ⟨?_, fun hb1 => ?_⟩
    · have : |(a : ℚ) / b - roundNat a b| ≤ 1 / 2 := by
        rw [e, div_le_iff₀ hbq]; linarith
      linarith
    · rw [h1 hb1, hb1]
      simp only [Nat.cast_one, div_one, sub_self, abs_zero]
      simpa [hb1] using h0

theorem round_error {s u : Bool} {a b k : ℕ} (hb : 0 < b) (hr : round s a b = fin u k) :
    |(units s a : ℚ) / b - units u k| ≤ roundoff * |(units s a : ℚ) / b| + 1 / 2 ∧
    (b = 1 → |(units s a : ℚ) / b - units u k| ≤ roundoff * |(units s a : ℚ) / b|) := by
  unfold round at hr
  dsimp only at hr
  split at hr
  · simp only [fin.injEq] at hr
    obtain ⟨rfl, rfl⟩ := hr
    have h := roundNat_errorQ a hb
    have e1 : |(units s a : ℚ) / b - units s (roundNat a b)| = |(a : ℚ) / b - roundNat a b| := by
      unfold units
      cases s
      · simp
      · simp only [if_true]
        push_cast
        rw [← abs_neg]
        congr 1
        ring
    have e2 : |(units s a : ℚ) / b| = a / b := by
      have : (0 : ℚ) ≤ a / b := by positivity
      unfold units
      cases s
      · simpa using abs_of_nonneg this
      · simp only [if_true]
        push_cast
        rw [neg_div, abs_neg, abs_of_nonneg this]
    rw [e1, e2]
    exact h
  · cases hr

/-! ### The operations -/

theorem add_error {x y : Flt} {a b c : ℚ} (hx : x.value = some a) (hy : y.value = some b)
    (hr : (add x y).value = some c) : |c - (a + b)| ≤ roundoff * |a + b| := by
  cases x with
  | nan => cases hx
  | inf _ => cases hx
  | fin s n =>
    cases y with
    | nan => cases hy
    | inf _ => cases hy
    | fin t m =>
      simp only [value, Option.some.injEq] at hx hy
      have hab : a + b = ((units s n + units t m : ℤ) : ℚ) / unit := by
        rw [← hx, ← hy]; push_cast; ring
      have h2 := unit_posQ
      rw [hab]
      rw [add_fin, ofUnits] at hr
      split at hr
      · rename_i h0
        simp only [value, units, Option.some.injEq] at hr
        rw [h0, ← hr]
        simp
      · cases ho : round (decide (units s n + units t m < 0)) (units s n + units t m).natAbs 1 with
        | nan => rw [ho] at hr; cases hr
        | inf _ => rw [ho] at hr; cases hr
        | fin u k =>
          rw [ho] at hr
          simp only [value, Option.some.injEq] at hr
          have := (round_error one_pos ho).2 rfl
          rw [units_natAbs, Nat.cast_one, div_one] at this
          rw [← hr, ← sub_div, abs_div, abs_div, abs_of_pos h2, ← mul_div_assoc, abs_sub_comm]
          exact div_le_div_of_nonneg_right this h2.le

/-- The error of a sum in terms of the computed sum. -/
theorem add_error' {x y : Flt} {a b c : ℚ} (hx : x.value = some a) (hy : y.value = some b)
    (hr : (add x y).value = some c) : |c - (a + b)| ≤ roundoff * |c| := by
  cases x with
  | nan => cases hx
  | inf _ => cases hx
  | fin s n =>
    cases y with
    | nan => cases hy
    | inf _ => cases hy
    | fin t m =>
      simp only [value, Option.some.injEq] at hx hy
      have hab : a + b = ((units s n + units t m : ℤ) : ℚ) / unit := by
        rw [← hx, ← hy]; push_cast; ring
      have h2 := unit_posQ
      rw [hab]
      rw [add_fin, ofUnits] at hr
      generalize units s n + units t m = i at *
      split at hr
      · rename_i h0
        simp only [value, units, Option.some.injEq] at hr
        rw [h0, ← hr]
        simp
      · unfold round at hr
        dsimp only at hr
        split at hr
        · simp only [value, Option.some.injEq] at hr
          have e1 : |(i : ℚ) - (units (decide (i < 0)) (roundNat i.natAbs 1) : ℤ)| =
              |(i.natAbs : ℚ) - roundNat i.natAbs 1| := by
            unfold units
            by_cases hi : i < 0
            · have : (i.natAbs : ℚ) = -(i : ℚ) := by
                rw [Nat.cast_natAbs, Int.cast_abs, abs_of_neg (by exact_mod_cast hi)]
              simp only [hi, decide_true, if_true, this]
              push_cast
              rw [← abs_neg]
              congr 1
              ring
            · have : (i.natAbs : ℚ) = (i : ℚ) := by
                rw [Nat.cast_natAbs, Int.cast_abs, abs_of_nonneg (by exact_mod_cast not_lt.mp hi)]
              simp [hi, this]
          have e2 : |(units (decide (i < 0)) (roundNat i.natAbs 1) : ℚ)| = roundNat i.natAbs 1 := by
            unfold units
            by_cases hi : i < 0 <;> simp [hi]
          rw [← hr, ← sub_div, abs_div, abs_div, abs_of_pos h2, ← mul_div_assoc, abs_sub_comm, e1, e2]
          refine div_le_div_of_nonneg_right ?_ h2.le
          generalize i.natAbs = a at *
          rcases roundNat_error' a one_pos with h | h
          · have hq : (2 : ℚ) ^ (sig + 1) * |(a : ℚ) - 1 * roundNat a 1| ≤ 1 * roundNat a 1 := by
              exact_mod_cast h
            rw [one_mul] at hq
            rw [roundoff, one_div_mul_eq_div, le_div_iff₀ (by positivity), mul_comm]
            exact hq
          · rw [h rfl]
            have := roundoff_pos
            simp only [sub_self, abs_zero]
            positivity
        · cases hr

theorem value_neg (x : Flt) : (neg x).value = x.value.map (- ·) := by
  cases x with
  | nan => rfl
  | inf _ => rfl
  | fin s n =>
    simp only [neg, value, Option.map_some, Option.some.injEq, units]
    cases s <;> simp [neg_div]

theorem sub_error {x y : Flt} {a b c : ℚ} (hx : x.value = some a) (hy : y.value = some b)
    (hr : (sub x y).value = some c) : |c - (a - b)| ≤ roundoff * |a - b| := by
  have := add_error (y := neg y) (b := -b) hx (by rw [value_neg, hy]; rfl) hr
  simpa [sub_eq_add_neg] using this

theorem mul_error {x y : Flt} {a b c : ℚ} (hx : x.value = some a) (hy : y.value = some b)
    (hr : (mul x y).value = some c) : |c - a * b| ≤ roundoff * |a * b| + tiny := by
  cases x with
  | nan => cases hx
  | inf _ => cases hx
  | fin s n =>
    cases y with
    | nan => cases hy
    | inf _ => cases hy
    | fin t m =>
      simp only [value, Option.some.injEq] at hx hy
      have h2 := unit_posQ
      rw [mul_fin] at hr
      cases ho : round (xor s t) (n * m) unit with
      | nan => rw [ho] at hr; cases hr
      | inf _ => rw [ho] at hr; cases hr
      | fin u k =>
        rw [ho] at hr
        simp only [value, Option.some.injEq] at hr
        have := (round_error unit_pos ho).1
        rw [units_mul] at this
        have e1 : a * b = (units s n : ℚ) * units t m / unit / unit := by
          rw [← hx, ← hy]; field_simp
        rw [tiny_eq, ← hr, e1, ← sub_div, abs_div, abs_div, abs_of_pos h2, ← mul_div_assoc,
          abs_sub_comm, ← add_div]
        exact div_le_div_of_nonneg_right this h2.le

theorem div_error {x y : Flt} {a b c : ℚ} (hx : x.value = some a) (hy : y.value = some b)
    (hr : (div x y).value = some c) : b ≠ 0 ∧ |c - a / b| ≤ roundoff * |a / b| + tiny := by
  cases x with
  | nan => cases hx
  | inf _ => cases hx
  | fin s n =>
    cases y with
    | nan => cases hy
    | inf _ => cases hy
    | fin t m =>
      simp only [value, Option.some.injEq] at hx hy
      have h2 := unit_posQ
      by_cases hm : m = 0
      · subst hm
        simp only [div, if_true] at hr
        split at hr <;> cases hr
      · have hmq : (m : ℚ) ≠ 0 := by exact_mod_cast hm
        rw [div_fin _ _ _ _ hm] at hr
        cases ho : round (xor s t) (n * unit) m with
        | nan => rw [ho] at hr; cases hr
        | inf _ => rw [ho] at hr; cases hr
        | fin u k =>
          rw [ho] at hr
          simp only [value, Option.some.injEq] at hr
          have := (round_error (by omega) ho).1
          have hq : (units (xor s t) (n * unit) : ℚ) / m = a / b * unit := by
            rw [← hx, ← hy]
            unfold units
            cases s <;> cases t <;> simp <;> field_simp
          rw [hq] at this
          have e1 : a / b = a / b * unit / unit := by field_simp
          refine ⟨?_, ?_⟩
          · rw [← hy]
            refine div_ne_zero ?_ h2.ne'
            unfold units
            cases t <;> simp [hm]
          · rw [tiny_eq, ← hr, e1, ← sub_div, abs_div, abs_div, abs_of_pos h2, ← mul_div_assoc,
              abs_sub_comm, ← add_div]
            exact div_le_div_of_nonneg_right this h2.le

/-! ### Only finite operands give finite results -/

theorem add_finite {x y : Flt} {c : ℚ} (hr : (add x y).value = some c) :
    (∃ a, x.value = some a) ∧ ∃ b, y.value = some b := by
  cases x with
  | nan => cases y <;> cases hr
  | inf s =>
    cases y with
    | nan => cases hr
    | inf t => simp only [add] at hr; split at hr <;> cases hr
    | fin _ _ => cases hr
  | fin s n =>
    cases y with
    | nan => cases hr
    | inf t => cases hr
    | fin _ _ => exact ⟨⟨_, rfl⟩, ⟨_, rfl⟩⟩

theorem mul_finite {x y : Flt} {c : ℚ} (hr : (mul x y).value = some c) :
    (∃ a, x.value = some a) ∧ ∃ b, y.value = some b := by
  cases x with
  | nan => cases y <;> cases hr
  | inf s =>
    cases y with
    | nan => cases hr
    | inf t => cases hr
    | fin _ _ => simp only [mul] at hr; split at hr <;> cases hr
  | fin s n =>
    cases y with
    | nan => cases hr
    | inf t => simp only [mul] at hr; split at hr <;> cases hr
    | fin _ _ => exact ⟨⟨_, rfl⟩, ⟨_, rfl⟩⟩

/-! ### Results below `2^maxExp - 2^(maxExp - sig - 2)` are finite -/

/-- `2^maxExp - 2^(maxExp - sig - 2)`, from where on results are rounded to infinity. -/
@[irreducible] def huge : ℚ := overflow / unit

theorem huge_eq : huge = 2 ^ maxExp - 2 ^ (maxExp - sig - 2) := by
  have h : overflow = 2 ^ maxExp * unit - 2 ^ (maxExp - sig - 2) * unit := by
    cases ‹Fmt› <;> decide +kernel
  have hle : ∀ j k, j ≤ k → 2 ^ j * unit ≤ 2 ^ k * unit := fun j k hjk =>
    Nat.mul_le_mul_right _ (Nat.pow_le_pow_right (by norm_num) hjk)
  have h2 := unit_posQ
  unfold huge
  rw [h, Nat.cast_sub (hle (maxExp - sig - 2) maxExp (by omega)), Nat.cast_mul, Nat.cast_mul, ← sub_mul, mul_div_assoc, div_self h2.ne',
    mul_one, Nat.cast_pow, Nat.cast_pow, Nat.cast_ofNat]

theorem round_finite (s : Bool) (a : ℕ) {b : ℕ} (hb : 0 < b) (h : (a : ℚ) / b / unit < huge) :
    ∃ c, (round s a b).value = some c := by
  have h2 := unit_posQ
  have hbq : (0 : ℚ) < b := by exact_mod_cast hb
  unfold huge at h
  rw [div_lt_div_iff_of_pos_right h2, div_lt_iff₀ hbq] at h
  have hlt : a < overflow * b := by exact_mod_cast h
  have hne : round s a b ≠ inf s := fun he => by
    have := (round_inf_iff s a b hb).mp he
    omega
  unfold round at hne ⊢
  dsimp only at hne ⊢
  split
  · exact ⟨_, rfl⟩
  · rename_i hn
    rw [if_neg hn] at hne
    exact absurd rfl hne

omit [Fmt] in
theorem abs_units (s : Bool) (n : ℕ) : |(units s n : ℚ)| = n := by
  unfold units
  cases s <;> simp

theorem add_finite_of {x y : Flt} {a b : ℚ} (hx : x.value = some a) (hy : y.value = some b)
    (h : |a + b| < huge) : ∃ c, (add x y).value = some c := by
  cases x with
  | nan => cases hx
  | inf _ => cases hx
  | fin s n =>
    cases y with
    | nan => cases hy
    | inf _ => cases hy
    | fin t m =>
      simp only [value, Option.some.injEq] at hx hy
      have h2 := unit_posQ
      have hab : a + b = ((units s n + units t m : ℤ) : ℚ) / unit := by
        rw [← hx, ← hy]; push_cast; ring
      rw [hab] at h
      rw [add_fin, ofUnits]
      generalize units s n + units t m = i at *
      split
      · exact ⟨_, rfl⟩
      · refine round_finite _ _ one_pos ?_
        rw [abs_div, abs_of_pos h2] at h
        rw [Nat.cast_one, div_one, Nat.cast_natAbs, Int.cast_abs]
        exact h

theorem mul_finite_of {x y : Flt} {a b : ℚ} (hx : x.value = some a) (hy : y.value = some b)
    (h : |a * b| < huge) : ∃ c, (mul x y).value = some c := by
  cases x with
  | nan => cases hx
  | inf _ => cases hx
  | fin s n =>
    cases y with
    | nan => cases hy
    | inf _ => cases hy
    | fin t m =>
      simp only [value, Option.some.injEq] at hx hy
      have h2 := unit_posQ
      rw [mul_fin]
      refine round_finite _ _ unit_pos ?_
      rw [← hx, ← hy, abs_mul, abs_div, abs_div, abs_of_pos h2, abs_units, abs_units] at h
      convert h using 1
      push_cast
      field_simp

theorem div_finite_of {x y : Flt} {a b : ℚ} (hx : x.value = some a) (hy : y.value = some b)
    (hb : b ≠ 0) (h : |a / b| < huge) : ∃ c, (div x y).value = some c := by
  cases x with
  | nan => cases hx
  | inf _ => cases hx
  | fin s n =>
    cases y with
    | nan => cases hy
    | inf _ => cases hy
    | fin t m =>
      simp only [value, Option.some.injEq] at hx hy
      have h2 := unit_posQ
      have hm : m ≠ 0 := by
        rintro rfl
        apply hb
        rw [← hy]
        simp [units]
      have hmq : (m : ℚ) ≠ 0 := by exact_mod_cast hm
      rw [div_fin _ _ _ _ hm]
      refine round_finite _ _ (by omega) ?_
      rw [← hx, ← hy, abs_div, abs_div, abs_div, abs_of_pos h2, abs_units, abs_units] at h
      convert h using 1
      push_cast
      field_simp

/-- Adding `0.0` or `-0.0` does not change the value of a valid number. -/
theorem zero_add_value {x y : Flt} {b : ℚ} (hx : x.value = some 0) (hy : y.value = some b)
    (hv : y.Valid) {c : ℚ} (hr : (add x y).value = some c) : c = b := by
  have := add_nearest x y y 0 b c b hx hy hr hv hy
  simp only [zero_add, sub_self, abs_zero] at this
  have := abs_eq_zero.mp (le_antisymm this (abs_nonneg _))
  linarith

/-! ### Values -/

/-- The value of a finite number, `0` for the others. -/
def val (x : Flt) : ℚ := x.value.getD 0

theorem val_eq {x : Flt} {a : ℚ} (h : x.value = some a) : x.val = a := by simp [val, h]

theorem value_val {x : Flt} (h : x.value ≠ none) : x.value = some x.val := by
  obtain ⟨a, ha⟩ := Option.ne_none_iff_exists'.mp h
  rw [val_eq ha, ha]

theorem value_zero : zero.value = some 0 := by simp [value, zero, units]

theorem value_one : one.value = some 1 := by
  have := unit_posQ
  simp [value, one, units, this.ne']

theorem val_zero : zero.val = 0 := val_eq value_zero

theorem val_one : one.val = 1 := val_eq value_one

end Flt
end Verif
