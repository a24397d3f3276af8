import Verif.Num.Prims
import Verif.Props.Signs
import Verif.Props.Equality

/-!
# Property C213: `Zero` and `One` of the primitive types
-/

namespace Verif
open Res

namespace Prim

theorem ZERO_eq (t : Prim) : t.ZERO = 0 := by cases t <;> decide +kernel

theorem ONE_eq (t : Prim) : t.ONE = 1 := by cases t <;> decide +kernel

theorem zero_inRange (t : Prim) : t.InRange 0 := by cases t <;> decide +kernel

theorem one_inRange (t : Prim) : t.InRange 1 := by cases t <;> decide +kernel

theorem norm_eq (b : Build) (t : Prim) {x : Int} (h : t.InRange x) : norm b t x = .ok x := if_pos h

end Prim

/-- C213, integers: `ZERO` and `ONE` are values of the type, `is_zero` tells exactly the value whose sum with every
value is that value, without overflow, and `is_one` exactly the one whose product with every value is that value. -/
theorem C213_integers (b : Build) (t : Prim) :
    t.InRange t.ZERO ∧ t.InRange t.ONE ∧
    (∀ x, t.InRange x → ((t.isZero x = true ↔ ∀ y, t.InRange y → t.add b x y = .ok y) ∧
      (t.isOne x = true ↔ ∀ y, t.InRange y → t.mul b x y = .ok y))) := by
  refine ⟨by rw [t.ZERO_eq]; exact t.zero_inRange, by rw [t.ONE_eq]; exact t.one_inRange, fun x hx => ⟨?_, ?_⟩⟩
  · rw [Prim.isZero, t.ZERO_eq, decide_eq_true_iff]
    constructor
    · rintro rfl y hy
      rw [Prim.add, zero_add, t.norm_eq b hy]
    · intro h
      have := h 0 t.zero_inRange
      rw [Prim.add, add_zero, t.norm_eq b hx] at this
      exact Res.ok.inj this
  · rw [Prim.isOne, t.ONE_eq, decide_eq_true_iff]
    constructor
    · rintro rfl y hy
      rw [Prim.mul, one_mul, t.norm_eq b hy]
    · intro h
      have := h 1 t.one_inRange
      rw [Prim.mul, mul_one, t.norm_eq b hx] at this
      exact Res.ok.inj this

example : Prim.add .debug .i8 127 1 ≠ .ok 128 ∧ Prim.add .release .i8 127 1 = .ok (-128) ∧
    Prim.add .release .u8 255 1 = .ok 0 ∧ Prim.mul .debug .i128 (2 ^ 126) 1 = .ok (2 ^ 126) := by decide +kernel

/-- C213, ranges: the least and the greatest value of each type. -/
theorem C213_ranges (x : Int) :
    (Prim.u8.InRange x ↔ 0 ≤ x ∧ x ≤ 255) ∧ (Prim.u16.InRange x ↔ 0 ≤ x ∧ x ≤ 65535) ∧
    (Prim.u32.InRange x ↔ 0 ≤ x ∧ x ≤ 4294967295) ∧ (Prim.u64.InRange x ↔ 0 ≤ x ∧ x ≤ 18446744073709551615) ∧
    (Prim.u128.InRange x ↔ 0 ≤ x ∧ x ≤ 340282366920938463463374607431768211455) ∧
    (Prim.usize.InRange x ↔ 0 ≤ x ∧ x ≤ 18446744073709551615) ∧
    (Prim.i8.InRange x ↔ -128 ≤ x ∧ x ≤ 127) ∧ (Prim.i16.InRange x ↔ -32768 ≤ x ∧ x ≤ 32767) ∧
    (Prim.i32.InRange x ↔ -2147483648 ≤ x ∧ x ≤ 2147483647) ∧
    (Prim.i64.InRange x ↔ -9223372036854775808 ≤ x ∧ x ≤ 9223372036854775807) ∧
    (Prim.i128.InRange x ↔ -170141183460469231731687303715884105728 ≤ x ∧
      x ≤ 170141183460469231731687303715884105727) ∧
    (Prim.isize.InRange x ↔ -9223372036854775808 ≤ x ∧ x ≤ 9223372036854775807) := by
  simp only [Prim.InRange, Prim.signed, Prim.bits, Bool.false_eq_true, if_false, if_true]
  norm_num
  omega

/-- C213, overflow: without overflow checks a sum and a product wrap around: the result is a value of the type and
differs from the mathematical one by a multiple of `2^bits`; with them, either the result is the mathematical one or the
call panics. -/
theorem C213_overflow (t : Prim) (x y : Int) :
    (∃ z, t.add .release x y = .ok z ∧ t.InRange z ∧ (2 ^ t.bits : Int) ∣ x + y - z) ∧
    (∃ z, t.mul .release x y = .ok z ∧ t.InRange z ∧ (2 ^ t.bits : Int) ∣ x * y - z) ∧
    (t.InRange (x + y) → t.add .debug x y = .ok (x + y)) ∧
    (¬ t.InRange (x + y) → ∃ e, t.add .debug x y = .panic e) ∧
    (t.InRange (x * y) → t.mul .debug x y = .ok (x * y)) ∧
    (¬ t.InRange (x * y) → ∃ e, t.mul .debug x y = .panic e) := by
  have hd : ∀ v : Int, (t.InRange v → Prim.norm .debug t v = .ok v) ∧
      (¬ t.InRange v → ∃ e, Prim.norm .debug t v = .panic e) := fun v =>
    ⟨fun h => if_pos h, fun h => ⟨_, if_neg h⟩⟩
  have hr : ∀ v : Int, ∃ z, Prim.norm .release t v = .ok z ∧ t.InRange z ∧ (2 ^ t.bits : Int) ∣ v - z := by
    intro v
    by_cases h : t.InRange v
    · exact ⟨v, if_pos h, h, by simp⟩
    · refine ⟨t.wrap v, if_neg h, ?_⟩
      clear h
      cases t <;> simp only [Prim.InRange, Prim.wrap, Prim.signed, Prim.bits, Bool.false_eq_true, if_false, if_true,
        Int.bmod] <;> norm_num <;> refine ⟨?_, ?_⟩ <;> (try split) <;> omega
  exact ⟨hr _, hr _, (hd _).1, (hd _).2, (hd _).1, (hd _).2⟩

section
variable [Fmt]
open Flt

theorem Flt.Alike.eq {x y : Flt} (h : Alike x y) (hx : x ≠ nan) : Flt.eq y x = true := by
  rcases h with rfl | ⟨⟨s, rfl⟩, t, rfl⟩
  · exact (eq_refl_iff x).mpr hx
  · rw [eq_fin_iff]
    cases s <;> cases t <;> rfl

theorem Flt.mul_one_eq {y : Flt} (hy : y.Valid) : Flt.mul Flt.one y = y := by
  have hu := unit_pos
  cases y with
  | nan => rfl
  | inf s =>
    simp only [Flt.one, Flt.mul, if_neg hu.ne', Bool.false_xor]
  | fin s n =>
    have h1 : roundNat (n * unit) unit = n := roundNat_mul_of_repr hu (repr53_iff.mpr hy.1)
    simp only [Flt.one, Flt.mul, Bool.false_xor, Flt.round]
    rw [mul_comm, h1, if_pos hy.2]

/-- C213, floats: `is_zero` holds for `0.0` and `-0.0` only, the numbers that change no other number when added;
`is_one` holds for `1.0` only, the only number that changes no other number when multiplied. -/
theorem C213_floats (x : Flt) (hx : x.Valid) :
    (x.isZero = true ↔ ∃ s, x = fin s 0) ∧
    (x.isZero = true ↔ ∀ y : Flt, y.Valid → y ≠ nan → Flt.eq (Flt.add x y) y = true) ∧
    (x.isOne = true ↔ x = Flt.one) ∧
    (x.isOne = true ↔ ∀ y : Flt, y.Valid → y ≠ nan → Flt.eq (Flt.mul x y) y = true) := by
  have h0 : x.isZero = true ↔ ∃ s, x = fin s 0 := eq_zero_iff
  have h1 : x.isOne = true ↔ x = Flt.one := by
    unfold Flt.isOne
    constructor
    · intro h
      have hu := unit_pos
      cases x with
      | nan => exact absurd h (by simp [Flt.eq, Flt.partialCmp])
      | inf s => exact absurd h (by cases s <;> simp [Flt.eq, Flt.partialCmp, Flt.one])
      | fin s n =>
        have h := (eq_fin_iff s false n unit).mp h
        cases s
        · simp only [units, Bool.false_eq_true, if_false] at h
          rw [show n = unit by omega]; rfl
        · simp only [units, Bool.false_eq_true, if_false, if_true] at h
          omega
    · rintro rfl
      exact (eq_refl_iff _).mpr (by simp [Flt.one])
  refine ⟨h0, h0.trans ⟨?_, fun h => ?_⟩, h1, h1.trans ⟨?_, fun h => ?_⟩⟩
  · rintro ⟨s, rfl⟩ y hy hn
    have ha : Alike (Flt.add y zero) (Flt.add (fin s 0) y) := by
      rw [(C172_comm y zero).1]
      exact add_alike_left (.inr ⟨⟨_, rfl⟩, _, rfl⟩) y
    by_cases hz : y = fin true 0
    · subst hz
      clear hx h0 h1 hy hn ha
      cases s <;> fmt_decide
    · rw [(C172_zero y y).2.2 hy hz] at ha
      exact ha.eq hn
  · by_cases hz : x = fin true 0
    · exact ⟨_, hz⟩
    · have := h zero valid_constants.1 (by simp [zero])
      rw [(C172_zero x x).2.2 hx hz] at this
      exact eq_zero_iff.mp this
  · rintro rfl y hy hn
    rw [mul_one_eq hy]
    exact (eq_refl_iff _).mpr hn
  · have := h Flt.one valid_constants.2.1 (by simp [Flt.one])
    rw [(C172_comm x Flt.one).2, mul_one_eq hx] at this
    exact h1.mp this

example : Flt.isZero (fin true 0) = true ∧ Flt.isOne (Flt.neg Flt.one) = false ∧ Flt.isZero (Flt.nan : Flt) = false := by
  fmt_decide

end
end Verif
