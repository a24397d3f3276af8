import Verif.Proofs.F64Ops

/-!
# Property C172: signs, infinities and NaNs in the field operations of `f32` and `f64`
-/

namespace Verif
namespace Flt
open Fmt
variable [Fmt]

/-- The sign bit; NaNs have none in the model. -/
def sign : Flt → Bool
  | nan => false
  | inf s => s
  | fin s _ => s

theorem round_ne_nan (s : Bool) (a b : ℕ) : round s a b ≠ nan := by
  unfold round
  dsimp only
  split <;> simp

theorem sign_round (s : Bool) (a b : ℕ) : (round s a b).sign = s := by
  unfold round
  dsimp only
  split <;> rfl

theorem ofUnits_ne_nan (z : Bool) (i : ℤ) : ofUnits z i ≠ nan := by
  unfold ofUnits
  split
  · simp
  · exact round_ne_nan _ _ _

theorem value_eq_zero {x : Flt} : x.value = some 0 ↔ ∃ s, x = fin s 0 := by
  cases x with
  | nan => simp [value]
  | inf s => simp [value]
  | fin s n =>
    have hu : (unit : ℚ) ≠ 0 := ne_of_gt unit_posQ
    simp only [value, Option.some.injEq, div_eq_zero_iff, hu, or_false, fin.injEq, exists_eq_left']
    unfold units
    cases s <;> simp

theorem round_neg (s : Bool) (a b : ℕ) : round (!s) a b = neg (round s a b) := by
  unfold round
  dsimp only
  split <;> rfl

/-- C172. When the field operations return a NaN. -/
theorem C172_nan (x y : Flt) :
    (add x y = nan ↔ x = nan ∨ y = nan ∨ ∃ s, x = inf s ∧ y = inf (!s)) ∧
    (sub x y = nan ↔ x = nan ∨ y = nan ∨ ∃ s, x = inf s ∧ y = inf s) ∧
    (mul x y = nan ↔ x = nan ∨ y = nan ∨ (∃ s, x = inf s ∧ y.value = some 0) ∨
      ∃ s, x.value = some 0 ∧ y = inf s) ∧
    (div x y = nan ↔ x = nan ∨ y = nan ∨ (∃ s t, x = inf s ∧ y = inf t) ∨
      x.value = some 0 ∧ y.value = some 0) ∧
    (neg x = nan ↔ x = nan) ∧ (recip x = nan ↔ x = nan) := by
  have hadd : ∀ x y : Flt, add x y = nan ↔ x = nan ∨ y = nan ∨ ∃ s, x = inf s ∧ y = inf (!s) := by
    intro x y
    cases x with
    | nan => simp [add]
    | inf s =>
      cases y with
      | nan => simp [add]
      | inf t => cases s <;> cases t <;> simp [add]
      | fin t m => simp [add]
    | fin s n =>
      cases y with
      | nan => simp [add]
      | inf t => simp [add]
      | fin t m => simp [add, ofUnits_ne_nan]
  have hdiv : ∀ x y : Flt, div x y = nan ↔ x = nan ∨ y = nan ∨ (∃ s t, x = inf s ∧ y = inf t) ∨
      x.value = some 0 ∧ y.value = some 0 := by
    intro x y
    rw [value_eq_zero, value_eq_zero]
    cases x with
    | nan => simp [div]
    | inf s => cases y <;> simp [div]
    | fin s n =>
      cases y with
      | nan => simp [div]
      | inf t => simp [div]
      | fin t m =>
        by_cases hm : m = 0
        · by_cases hn : n = 0 <;> simp [div, hm, hn]
        · simp [div, hm, round_ne_nan]
  have hneg : ∀ x : Flt, neg x = nan ↔ x = nan := by intro x; cases x <;> simp [neg]
  refine ⟨hadd x y, ?_, ?_, hdiv x y, hneg x, ?_⟩
  · rw [sub, hadd, hneg]
    refine or_congr_right (or_congr_right (exists_congr fun s => and_congr_right fun _ => ?_))
    cases y <;> simp [neg]
  · rw [value_eq_zero, value_eq_zero]
    cases x with
    | nan => simp [mul]
    | inf s =>
      cases y with
      | nan => simp [mul]
      | inf t => simp [mul]
      | fin t m => simp [mul]
    | fin s n =>
      cases y with
      | nan => simp [mul]
      | inf t => simp [mul]
      | fin t m => simp [mul, round_ne_nan]
  · rw [recip, hdiv]
    have h1 : (one : Flt).value ≠ some 0 := by
      rw [Ne, value_eq_zero]
      rintro ⟨s, h⟩
      have : unit = 0 := by injection h
      exact absurd this unit_pos.ne'
    have h2 : (one : Flt) ≠ nan := by simp [one]
    have h3 : ∀ s, (one : Flt) ≠ inf s := by simp [one]
    simp [h1, h2, h3]

/-- C172. When an operand is infinite or a divisor is zero. -/
theorem C172_infinite (x y : Flt) (s : Bool) :
    (y ≠ nan → y ≠ inf (!s) → add (inf s) y = inf s) ∧
    (y ≠ nan → y.value ≠ some 0 → mul (inf s) y = inf (xor s y.sign)) ∧
    (y.value ≠ none → div (inf s) y = inf (xor s y.sign)) ∧
    (x.value ≠ none → div x (inf s) = fin (xor x.sign s) 0) ∧
    (x.value ≠ none → x.value ≠ some 0 → div x (fin s 0) = inf (xor x.sign s)) := by
  simp only [ne_eq, value_eq_zero]
  refine ⟨?_, ?_, ?_, ?_, ?_⟩
  · intro h1 h2
    cases y with
    | nan => exact absurd rfl h1
    | inf t => cases s <;> cases t <;> simp_all [add]
    | fin t m => rfl
  · intro h1 h2
    cases y with
    | nan => exact absurd rfl h1
    | inf t => rfl
    | fin t m =>
      have : m ≠ 0 := by rintro rfl; exact h2 ⟨t, rfl⟩
      simp [mul, this, sign]
  · intro h
    cases y with
    | nan => exact absurd rfl h
    | inf t => exact absurd rfl h
    | fin t m => rfl
  · intro h
    cases x with
    | nan => exact absurd rfl h
    | inf t => exact absurd rfl h
    | fin t m => rfl
  · intro h h2
    cases x with
    | nan => exact absurd rfl h
    | inf t => exact absurd rfl h
    | fin t m =>
      have : m ≠ 0 := by rintro rfl; exact h2 ⟨t, rfl⟩
      simp [div, this, sign]

/-- C172. Addition and multiplication are commutative, down to the sign of zero. -/
theorem C172_comm (x y : Flt) : add x y = add y x ∧ mul x y = mul y x := by
  cases x <;> cases y <;>
    simp only [add, mul, Bool.xor_comm, Bool.and_comm, add_comm, mul_comm, and_self]
  rename_i s t
  cases s <;> cases t <;> simp

/-- C172. Products and quotients have the sign of the rule of signs; so a change of sign of an
operand changes the sign of the result and nothing else. -/
theorem C172_sign (x y : Flt) :
    (mul x y ≠ nan → (mul x y).sign = xor x.sign y.sign) ∧
    (div x y ≠ nan → (div x y).sign = xor x.sign y.sign) ∧
    (x ≠ nan → (neg x).sign = !x.sign) ∧ neg (neg x) = x ∧
    mul (neg x) y = neg (mul x y) ∧ div (neg x) y = neg (div x y) ∧
    mul x (neg y) = neg (mul x y) ∧ div x (neg y) = neg (div x y) := by
  have hm : ∀ x y : Flt, mul (neg x) y = neg (mul x y) := by
    intro x y
    cases x with
    | nan => rfl
    | inf s =>
      cases y with
      | nan => rfl
      | inf t => simp [mul, neg]
      | fin t m => by_cases h : m = 0 <;> simp [mul, neg, h]
    | fin s n =>
      cases y with
      | nan => rfl
      | inf t => by_cases h : n = 0 <;> simp [mul, neg, h]
      | fin t m => simp only [mul, neg, Bool.not_xor, round_neg]
  refine ⟨?_, ?_, ?_, ?_, hm x y, ?_, ?_, ?_⟩
  · intro h
    cases x <;> cases y <;> simp only [mul, ne_eq, not_true_eq_false] at h ⊢
    · rfl
    · split at h
      · exact absurd rfl h
      · rename_i h0; rw [if_neg h0]; rfl
    · split at h
      · exact absurd rfl h
      · rename_i h0; rw [if_neg h0]; rfl
    · rw [sign_round]; rfl
  · intro h
    cases x <;> cases y <;> simp only [div, ne_eq, not_true_eq_false] at h ⊢
    · rfl
    · rfl
    · split at h
      · split at h
        · exact absurd rfl h
        · rename_i h0 h1; rw [if_pos h0, if_neg h1]; rfl
      · rename_i h0; rw [if_neg h0, sign_round]; rfl
  · cases x <;> simp [neg, sign]
  · cases x <;> simp [neg]
  · cases x with
    | nan => rfl
    | inf s =>
      cases y with
      | nan => rfl
      | inf t => rfl
      | fin t m => simp [div, neg]
    | fin s n =>
      cases y with
      | nan => rfl
      | inf t => simp [div, neg]
      | fin t m =>
        by_cases h : m = 0
        · by_cases h' : n = 0 <;> simp [div, neg, h, h']
        · simp only [div, neg, h, if_false, Bool.not_xor, round_neg]
  · rw [(C172_comm x (neg y)).2, hm, (C172_comm y x).2]
  · cases x with
    | nan => cases y <;> rfl
    | inf s =>
      cases y with
      | nan => rfl
      | inf t => rfl
      | fin t m => simp [div, neg]
    | fin s n =>
      cases y with
      | nan => rfl
      | inf t => simp [div, neg]
      | fin t m =>
        by_cases h : m = 0
        · by_cases h' : n = 0 <;> simp [div, neg, h, h']
        · simp only [div, neg, h, if_false, Bool.xor_not, round_neg]

/-- C172. `x - x` is `+0.0` for finite `x`; a sum is `-0.0` only if both terms are; adding `0.0`
changes nothing but the sign of `-0.0`. -/
theorem C172_zero (x y : Flt) :
    (x.value ≠ none → sub x x = zero) ∧
    (add x y = fin true 0 ↔ x = fin true 0 ∧ y = fin true 0) ∧
    (x.Valid → x ≠ fin true 0 → add x zero = x) := by
  have hu : ∀ (s : Bool) (n : ℕ), units s n + units (!s) n = 0 := by
    intro s n; cases s <;> simp [units]
  refine ⟨?_, ?_, ?_⟩
  · intro h
    cases x with
    | nan => exact absurd rfl h
    | inf s => exact absurd rfl h
    | fin s n =>
      simp only [sub, neg, add, hu, Bool.and_not_self]
      rfl
  · constructor
    · intro h
      cases x with
      | nan => cases h
      | inf s =>
        cases y with
        | nan => cases h
        | inf t =>
          simp only [add] at h
          split at h <;> cases h
        | fin t m => cases h
      | fin s n =>
        cases y with
        | nan => cases h
        | inf t => cases h
        | fin t m =>
          simp only [add, ofUnits] at h
          split at h
          · rename_i h0
            have h1 : (s && t) = true := by injection h
            simp only [Bool.and_eq_true] at h1
            obtain ⟨rfl, rfl⟩ := h1
            simp only [units, if_true] at h0
            exact ⟨by congr 1; omega, by congr 1; omega⟩
          · rename_i h0
            exfalso
            unfold round at h
            dsimp only at h
            split at h
            · have h1 : roundNat (units s n + units t m).natAbs 1 = 0 := by injection h
              have h2 : roundNat 1 1 = 1 := by cases ‹Fmt› <;> decide +kernel
              have h3 := roundNat_mono (a := 1) (b := 1)
                (a' := (units s n + units t m).natAbs) one_pos one_pos (by omega)
              omega
            · cases h
    · rintro ⟨rfl, rfl⟩; rfl
  · intro hv hx
    cases x with
    | nan => rfl
    | inf s => rfl
    | fin s n =>
      by_cases h0 : n = 0
      · subst h0
        cases s
        · rfl
        · exact absurd rfl hx
      · have e : units s n + units false 0 = units s n := by simp [units]
        simp only [add, zero, e, ofUnits]
        have h1 : units s n ≠ 0 := by unfold units; split <;> omega
        have h2 : decide (units s n < 0) = s := by
          unfold units; cases s <;> simp <;> omega
        have h3 : (units s n).natAbs = n := by unfold units; split <;> omega
        rw [if_neg h1, h2, h3, round, hv.1, if_pos hv.2]

-- every case of the statements occurs
example : add (inf true) (inf false) = nan ∧ mul (inf true) (fin true 0) = nan ∧
    div (fin true 0) (fin false 0) = nan ∧ div (one : Flt) (fin true 0) = inf true ∧
    mul (inf true) (neg one) = inf false ∧ sub (one : Flt) one = fin false 0 := by
  cases ‹Fmt› <;> decide +kernel

end Flt
end Verif
