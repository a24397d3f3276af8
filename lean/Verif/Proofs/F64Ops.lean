import Verif.Proofs.F64
import Verif.Proofs.Shape
import Mathlib.Data.Rat.Cast.Order
import Mathlib.Algebra.Order.Field.Basic
import Mathlib.Tactic.NormNum
import Mathlib.Tactic.FieldSimp

/-!
# The operations of the model of `f32` and `f64`: results are valid and correctly rounded
-/

namespace Verif
open Res LinAlg
namespace Flt
open Fmt
variable [Fmt]

/-- The rational number a finite number stands for. -/
def value : Flt → Option ℚ
  | fin s n => some ((units s n : ℚ) / unit)
  | _ => none

/-- `|x|` in units; a NaN counts as 0. -/
def mag : Flt → WithTop ℕ
  | nan => 0
  | inf _ => ⊤
  | fin _ n => n

/-! ### Validity -/

theorem limit_pos : 0 < limit := by
  unfold limit; generalize 2098 = k; positivity

theorem unit_pos : 0 < unit := by
  unfold unit; positivity

theorem add_fin (s t : Bool) (n m : ℕ) :
    add (fin s n) (fin t m) = ofUnits (s && t) (units s n + units t m) := rfl

theorem mul_fin (s t : Bool) (n m : ℕ) :
    mul (fin s n) (fin t m) = round (xor s t) (n * m) unit := rfl

theorem div_fin (s t : Bool) (n m : ℕ) (hm : m ≠ 0) :
    div (fin s n) (fin t m) = round (xor s t) (n * unit) m := if_neg hm

theorem valid_round (s : Bool) (a : ℕ) {b : ℕ} (hb : 0 < b) : (round s a b).Valid := by
  unfold round
  dsimp only
  split
  · exact ⟨roundNat_of_repr (repr_roundNat a hb), by assumption⟩
  · trivial

theorem valid_zero (s : Bool) : (fin s 0).Valid := ⟨roundNat_zero, limit_pos⟩

theorem valid_ofUnits (z : Bool) (i : ℤ) : (ofUnits z i).Valid := by
  unfold ofUnits
  split
  · exact valid_zero z
  · exact valid_round _ _ one_pos

/-- Every operation returns a valid datum. -/
theorem valid_add (x y : Flt) : (add x y).Valid := by
  cases x <;> cases y <;> try trivial
  · rename_i s t; simp only [add]; split <;> trivial
  · exact valid_ofUnits _ _

theorem valid_neg (x : Flt) (hx : x.Valid) : (neg x).Valid := by
  cases x <;> exact hx

theorem valid_abs (x : Flt) (hx : x.Valid) : (abs x).Valid := by
  cases x <;> exact hx

theorem valid_sub (x y : Flt) : (sub x y).Valid := valid_add x _

theorem valid_mul (x y : Flt) : (mul x y).Valid := by
  cases x <;> cases y <;> try trivial
  · simp only [mul]; split <;> trivial
  · simp only [mul]; split <;> trivial
  · exact valid_round _ _ unit_pos

theorem valid_div (x y : Flt) : (div x y).Valid := by
  cases x <;> cases y <;> try trivial
  · exact valid_zero _
  · simp only [div]
    split
    · split <;> trivial
    · exact valid_round _ _ (by omega)

theorem valid_constants : zero.Valid ∧ one.Valid ∧ EPSILON.Valid :=
  ⟨valid_zero _, by cases ‹Fmt› <;> decide +kernel, by cases ‹Fmt› <;> decide +kernel⟩

/-! ### Rounding -/

/-- `round` takes a finite number nearest to `(-1)^s * a / b` units. -/
theorem round_nearest (s u v : Bool) (a b k l : ℕ) (hb : 0 < b) (hr : round s a b = fin u k)
    (hl : (fin v l).Valid) :
    |(units s a : ℚ) / b - units u k| ≤ |(units s a : ℚ) / b - units v l| := by
  unfold round at hr
  dsimp only at hr
  split at hr
  · cases hr
    have hbq : (0 : ℚ) < b := by exact_mod_cast hb
    have key : ∀ m : ℕ, ReprP m →
        |(a : ℚ) / b - roundNat a b| ≤ |(a : ℚ) / b - m| := by
      intro m hm
      have h := roundNat_nearest a hb hm
      have h' : |(a : ℚ) - b * roundNat a b| ≤ |(a : ℚ) - b * m| := by exact_mod_cast h
      have e : ∀ c : ℚ, |(a : ℚ) / b - c| = |(a : ℚ) - b * c| / b := by
        intro c
        rw [show (a : ℚ) / b - c = ((a : ℚ) - b * c) / b by field_simp, abs_div, abs_of_pos hbq]
      rw [e, e]
      exact div_le_div_of_nonneg_right h' hbq.le
    have hl' : ReprP l := repr53_iff.mpr hl.1
    have h1 := key l hl'
    have h0 := key 0 (repr53_iff.mpr roundNat_zero)
    generalize roundNat a b = k at *
    have hq : (0 : ℚ) ≤ (a : ℚ) / b := by positivity
    have hlq : (0 : ℚ) ≤ (l : ℚ) := by positivity
    rw [Nat.cast_zero, sub_zero, abs_of_nonneg hq] at h0
    have hcross : |(a : ℚ) / b - k| ≤ |(a : ℚ) / b + l| := by
      rw [abs_of_nonneg (add_nonneg hq hlq)]; linarith
    have habs : ∀ x y : ℚ, |-x / b - y| = |x / b + y| := by
      intro x y; rw [← abs_neg]; congr 1; ring
    have habs' : ∀ x y : ℚ, |-x / b + y| = |x / b - y| := by
      intro x y; rw [← abs_neg]; congr 1; ring
    unfold units
    cases s <;> cases v <;> simp only [Bool.false_eq_true, if_false, if_true, Int.cast_neg,
      Int.cast_natCast, habs, habs', sub_neg_eq_add]
    · exact h1
    · exact hcross
    · exact hcross
    · exact h1
  · cases hr

omit [Fmt] in
theorem units_natAbs (i : ℤ) : units (decide (i < 0)) i.natAbs = i := by
  unfold units
  by_cases h : i < 0
  · simp only [h, decide_true, if_true]; omega
  · simp only [h, decide_false, Bool.false_eq_true, if_false]; omega

theorem unit_posQ : (0 : ℚ) < unit := by exact_mod_cast unit_pos

/-- A finite sum is a nearest valid number to the exact sum. -/
theorem add_nearest (x y w : Flt) (a b c d : ℚ) (hx : x.value = some a) (hy : y.value = some b)
    (hr : (add x y).value = some c) (hw : w.Valid) (hwv : w.value = some d) :
    |a + b - c| ≤ |a + b - d| := by
  cases x with
  | nan => cases hx
  | inf _ => cases hx
  | fin s n =>
    cases y with
    | nan => cases hy
    | inf _ => cases hy
    | fin t m =>
      cases w with
      | nan => cases hwv
      | inf _ => cases hwv
      | fin v l =>
        simp only [value, Option.some.injEq] at hx hy hwv
        have hab : a + b = ((units s n + units t m : ℤ) : ℚ) / unit := by
          rw [← hx, ← hy]; push_cast; ring
        have h2 := unit_posQ
        have e : ∀ i : ℤ, |((units s n + units t m : ℤ) : ℚ) / unit - (i : ℚ) / unit| =
            |((units s n + units t m : ℤ) : ℚ) - i| / unit := by
          intro i; rw [← sub_div, abs_div, abs_of_pos h2]
        rw [hab]
        rw [add_fin, ofUnits] at hr
        split at hr
        · rename_i h0
          simp only [value, units, Option.some.injEq] at hr
          rw [h0, ← hr]
          simp
        · cases ho : round (decide (units s n + units t m < 0)) (units s n + units t m).natAbs 1 with
          | nan => rw [ho] at hr; cases hr
          | inf _ => rw [ho] at hr; cases hr
          | fin u k =>
            rw [ho] at hr
            simp only [value, Option.some.injEq] at hr
            have := round_nearest _ u v _ 1 k l one_pos ho hw
            rw [units_natAbs, Nat.cast_one, div_one] at this
            rw [← hr, ← hwv, e, e]
            exact div_le_div_of_nonneg_right this h2.le

omit [Fmt] in
theorem units_mul (s t : Bool) (n m : ℕ) :
    (units (xor s t) (n * m) : ℚ) = units s n * units t m := by
  unfold units
  cases s <;> cases t <;> simp

/-- A finite product is a nearest valid number to the exact product. -/
theorem mul_nearest (x y w : Flt) (a b c d : ℚ) (hx : x.value = some a) (hy : y.value = some b)
    (hr : (mul x y).value = some c) (hw : w.Valid) (hwv : w.value = some d) :
    |a * b - c| ≤ |a * b - d| := by
  cases x with
  | nan => cases hx
  | inf _ => cases hx
  | fin s n =>
    cases y with
    | nan => cases hy
    | inf _ => cases hy
    | fin t m =>
      cases w with
      | nan => cases hwv
      | inf _ => cases hwv
      | fin v l =>
        simp only [value, Option.some.injEq] at hx hy hwv
        have h2 := unit_posQ
        rw [mul_fin] at hr
        cases ho : round (xor s t) (n * m) unit with
        | nan => rw [ho] at hr; cases hr
        | inf _ => rw [ho] at hr; cases hr
        | fin u k =>
          rw [ho] at hr
          simp only [value, Option.some.injEq] at hr
          have := round_nearest _ u v _ unit k l unit_pos ho hw
          rw [units_mul] at this
          have e : ∀ i : ℚ, |a * b - i / unit| =
              |(units s n : ℚ) * units t m / unit - i| / unit := by
            intro i
            rw [← hx, ← hy]
            conv_rhs => rw [← abs_of_pos h2, ← abs_div, abs_of_pos h2]
            congr 1
            field_simp
          rw [← hr, ← hwv, e, e]
          exact div_le_div_of_nonneg_right this h2.le

/-- A finite quotient is a nearest valid number to the exact quotient. -/
theorem div_nearest (x y w : Flt) (a b c d : ℚ) (hx : x.value = some a) (hy : y.value = some b)
    (hr : (div x y).value = some c) (hw : w.Valid) (hwv : w.value = some d) :
    b ≠ 0 ∧ |a / b - c| ≤ |a / b - d| := by
  cases x with
  | nan => cases hx
  | inf _ => cases hx
  | fin s n =>
    cases y with
    | nan => cases hy
    | inf _ => cases hy
    | fin t m =>
      cases w with
      | nan => cases hwv
      | inf _ => cases hwv
      | fin v l =>
        simp only [value, Option.some.injEq] at hx hy hwv
        have h2 := unit_posQ
        by_cases hm : m = 0
        · subst hm
          simp only [div, if_true] at hr
          split at hr <;> cases hr
        · have hmq : (m : ℚ) ≠ 0 := by exact_mod_cast hm
          rw [div_fin _ _ _ _ hm] at hr
          cases ho : round (xor s t) (n * unit) m with
          | nan => rw [ho] at hr; cases hr
          | inf _ => rw [ho] at hr; cases hr
          | fin u k =>
            rw [ho] at hr
            simp only [value, Option.some.injEq] at hr
            have := round_nearest _ u v _ m k l (by omega) ho hw
            have hq : (units (xor s t) (n * unit) : ℚ) / m = a / b * unit := by
              rw [← hx, ← hy]
              unfold units
              cases s <;> cases t <;> simp <;> field_simp
            rw [hq] at this
            have e : ∀ i : ℚ, |a / b - i / unit| = |a / b * unit - i| / unit := by
              intro i
              conv_rhs => rw [← abs_of_pos h2, ← abs_div, abs_of_pos h2]
              congr 1
              field_simp
            refine ⟨?_, ?_⟩
            · rw [← hy]
              refine div_ne_zero ?_ h2.ne'
              unfold units
              cases t <;> simp [hm]
            · rw [← hr, ← hwv, e, e]
              exact div_le_div_of_nonneg_right this h2.le

theorem roundNat_lt {a b : ℕ} (e : ℕ) (hb : 0 < b) (h : 2 * a < (2 ^ (sig + 2) - 1) * 2 ^ e * b) :
    roundNat a b < 2 ^ (sig + 1) * 2 ^ e := by
  by_cases hq : expo (a / b) < e
  · calc roundNat a b = rne a (b * 2 ^ expo (a / b)) * 2 ^ expo (a / b) := roundNat_eq a b
      _ ≤ 2 ^ (sig + 1) * 2 ^ expo (a / b) := Nat.mul_le_mul_right _ (significand_le a hb)
      _ < 2 ^ (sig + 1) * 2 ^ e :=
        Nat.mul_lt_mul_of_pos_left (Nat.pow_lt_pow_right (by norm_num) hq) (by norm_num)
  · have hk : expo (a / b) = e := by
      by_contra hne
      have hlt : e + 1 ≤ expo (a / b) := by omega
      have h1 := le_of_expo (q := a / b) (by omega)
      have h2 : 2 ^ (sig + expo (a / b)) * b ≤ a := (Nat.le_div_iff_mul_le hb).mp h1
      have h3 : 2 ^ (sig + (e + 1)) * b ≤ 2 ^ (sig + expo (a / b)) * b :=
        Nat.mul_le_mul_right _ (Nat.pow_le_pow_right (by norm_num) (by omega))
      have h4 : 2 ^ (sig + (e + 1)) * b = 2 ^ (sig + 1) * (2 ^ e * b) := by
        rw [show sig + (e + 1) = sig + 1 + e by omega, pow_add]; ring
      have h5 : (2 ^ (sig + 2) - 1) * 2 ^ e * b = 2 * (2 ^ (sig + 1) * (2 ^ e * b)) - 2 ^ e * b := by
        rw [mul_assoc, Nat.sub_mul, one_mul, pow_succ]; ring_nf
      generalize 2 ^ e * b = P at *
      omega
    rw [roundNat_eq, hk]
    have hB : 0 < b * 2 ^ e := Nat.mul_pos hb (by positivity)
    obtain ⟨-, h2, -⟩ := rne_bounds (a := a) hB
    refine Nat.mul_lt_mul_of_pos_right ?_ (by positivity)
    by_contra hc
    push Not at hc
    have h4 : 2 * 2 ^ (sig + 1) * (b * 2 ^ e) ≤ 2 * rne a (b * 2 ^ e) * (b * 2 ^ e) :=
      Nat.mul_le_mul_right _ (by omega)
    have h5 : (2 ^ (sig + 2) - 1) * 2 ^ e * b = 2 * 2 ^ (sig + 1) * (b * 2 ^ e) - b * 2 ^ e := by
      rw [mul_assoc, Nat.sub_mul, one_mul, pow_succ]; ring_nf
    generalize b * 2 ^ e = P at *
    omega

/-- `2^maxExp - 2^(maxExp - sig - 2)` in units: from here on results are rounded to infinity. -/
@[irreducible] def overflow : ℕ := 2 ^ (maxExp + unitExp) - 2 ^ (maxExp + unitExp - sig - 2)

theorem overflow_eq : 2 * overflow = (2 ^ (sig + 2) - 1) * 2 ^ (maxExp + unitExp - sig - 1) := by cases ‹Fmt› <;> decide +kernel

/-- A rounded result is infinite exactly if the exact one is at least `2^maxExp - 2^(maxExp - sig - 2)` in absolute
value. -/
theorem round_inf_iff (s : Bool) (a b : ℕ) (hb : 0 < b) :
    round s a b = inf s ↔ overflow * b ≤ a := by
  unfold round
  dsimp only
  have key : roundNat a b < limit ↔ ¬ overflow * b ≤ a := by
    constructor
    · intro h hle
      have h1 : roundNat overflow 1 ≤ roundNat a b := roundNat_mono one_pos hb (by rwa [mul_one])
      have h2 : limit ≤ roundNat overflow 1 := by cases ‹Fmt› <;> decide +kernel
      omega
    · intro hlt
      push Not at hlt
      have := roundNat_lt (a := a) (maxExp + unitExp - sig - 1) hb (by rw [← overflow_eq, mul_assoc]; omega)
      have h2 : 2 ^ (sig + 1) * 2 ^ (maxExp + unitExp - sig - 1) = limit := by cases ‹Fmt› <;> decide +kernel
      rwa [h2] at this
  split
  · rename_i h; simp [key.mp h]
  · rename_i h; rw [key, not_not] at h; simp [h]

end Flt
end Verif
