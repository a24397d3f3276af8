import Verif.Props.Num
import Verif.Proofs.Pivot

/-!
# Properties C80–C84: what the number types compute, exactly

These state the behaviour of `Integer` and `Rational` on every input, including inputs on which
the documented contract fails (C02, C06, C08, C09).
-/

namespace Verif
open Res LinAlg

/-! ## C80 tests for zero and one -/

/-- C80. `is_zero` and `is_one` of a rational with positive denominator test its value, whether or
not it is in simplest form. -/
theorem C80_rational (x : Rational) (h : 0 < x.denom) :
    (x.isZero = true ↔ x.val = 0) ∧ (x.isOne = true ↔ x.val = 1) := by
  have hd : (x.denom : ℚ) ≠ 0 := by exact_mod_cast h.ne'
  refine ⟨?_, ?_⟩
  · rw [Rational.val_eq_zero_iff h]; simp [Rational.isZero, Integer.isZero]
  · rw [Rational.val, div_eq_one_iff_eq hd]; simp [Rational.isOne]

/-- C80 for `Integer`. -/
theorem C80_integer (x : Int) :
    (Integer.isZero x = true ↔ x = 0) ∧ (Integer.isOne x = true ↔ x = 1) ∧
    (Integer.isPos x = true ↔ 0 < x) ∧ (Integer.isNeg x = true ↔ x < 0) := by
  simp [Integer.isZero, Integer.isOne, Integer.isPos, Integer.isNeg]

/-- The unreduced sum `1/2 + 1/2` is recognised as one, although it is not `== ONE`. -/
example : (⟨4, 4⟩ : Rational).isOne = true ∧ (⟨4, 4⟩ : Rational) ≠ Rational.ONE := by decide
example : (⟨3, 4⟩ : Rational).isOne = false := by decide

/-! ## C81 the pivot over rationals -/

/-- `|numer| + |denom|`, the quantity `stability_cmp` compares. -/
def Rational.height (x : Rational) : ℕ := x.numer.natAbs + x.denom.natAbs

/-- C81. `stability_cmp` on all rationals: zero is less than everything (itself included), and of
two nonzero rationals the one with the smaller `|numer| + |denom|` is the greater. -/
theorem C81_stability_cmp (x y : Rational) :
    Spec IsOverflow (Rational.stabilityCmp .debug x y) (fun o => o = some (
      if x = Rational.ZERO then .lt else if y = Rational.ZERO then .gt
      else compare y.height x.height)) := by
  unfold Rational.stabilityCmp
  split
  · exact rfl
  · split
    · exact rfl
    · refine (Integer.abs_spec _).bind ?_
      rintro _ rfl
      refine (Integer.abs_spec _).bind ?_
      rintro _ rfl
      refine (Integer.add_spec _ _).bind ?_
      rintro _ rfl
      refine (Integer.abs_spec _).bind ?_
      rintro _ rfl
      refine (Integer.abs_spec _).bind ?_
      rintro _ rfl
      refine (Integer.add_spec _ _).bind ?_
      rintro _ rfl
      show some _ = some _
      congr 1
      rw [Rational.height, Rational.height]
      rcases lt_trichotomy (y.numer.natAbs + y.denom.natAbs) (x.numer.natAbs + x.denom.natAbs)
        with h | h | h
      · rw [compare_lt_iff_lt.mpr h, compare_lt_iff_lt.mpr (by exact_mod_cast h)]
      · rw [compare_eq_iff_eq.mpr h, compare_eq_iff_eq.mpr (by exact_mod_cast h)]
      · rw [compare_gt_iff_gt.mpr h, compare_gt_iff_gt.mpr (by exact_mod_cast h)]

/-- C81. The pivot: among the nonzero entries the chosen one has the least `|numer| + |denom|`, and
it is the last such entry; if every entry is zero the last entry is chosen. -/
theorem C81_pivot (l : List Rational) (hl : l ≠ []) :
    Spec IsOverflow (getMaxIndex l (Rational.stabilityCmp .debug)) (fun i => ∃ x, l[i]? = some x ∧
      (∀ (j : ℕ) y, l[j]? = some y → y ≠ Rational.ZERO → x ≠ Rational.ZERO ∧ x.height ≤ y.height ∧
        (i < j → x.height < y.height)) ∧
      ((∀ y ∈ l, y = Rational.ZERO) → i + 1 = l.length)) := by
  let key : Rational → WithBot ℤ := fun x =>
    if x = Rational.ZERO then ⊥ else ((-(x.height : ℤ) : ℤ) : WithBot ℤ)
  refine (getMaxIndex_last key l hl fun a _ b _ => ?_).imp ?_
  · refine (C81_stability_cmp a b).imp ?_
    rintro _ rfl
    show _ = Ordering.gt ↔ key b < key a
    dsimp only [key]
    split_ifs with h1 h2 h2
    · simp
    · simp
    · simp [WithBot.bot_lt_coe]
    · rw [compare_gt_iff_gt, WithBot.coe_lt_coe]; omega
  · rintro i ⟨x, h1, h2, h3⟩
    refine ⟨x, h1, fun j y hy hy0 => ?_, fun h0 => ?_⟩
    · have ky : key y = ((-(y.height : ℤ) : ℤ) : WithBot ℤ) := if_neg hy0
      have hle := h2 j y hy
      by_cases hx : x = Rational.ZERO
      · have kx : key x = ⊥ := if_pos hx
        rw [kx, ky] at hle
        simp at hle
      · have kx : key x = ((-(x.height : ℤ) : ℤ) : WithBot ℤ) := if_neg hx
        refine ⟨hx, ?_, fun hij => ?_⟩
        · rw [kx, ky, WithBot.coe_le_coe] at hle; omega
        · have := h3 j y hij hy
          rw [kx, ky, WithBot.coe_lt_coe] at this; omega
    · by_contra hne
      have hi := (List.getElem?_eq_some_iff.mp h1).1
      have hlt : l.length - 1 < l.length := by omega
      have := h3 (l.length - 1) l[l.length - 1] (by omega) (List.getElem?_eq_getElem hlt)
      have k1 : key l[l.length - 1] = ⊥ := if_pos (h0 _ (List.getElem_mem hlt))
      have k2 : key x = ⊥ := if_pos (h0 _ (List.mem_of_getElem? h1))
      rw [k1, k2] at this
      exact lt_irrefl _ this

example : getMaxIndex [⟨7, 3⟩, ⟨0, 1⟩, ⟨1, 2⟩, ⟨-2, 1⟩, ⟨5, 1⟩] (Rational.stabilityCmp .debug) = .ok 3 := by
  decide

/-! ## C82 `lcm` on every input -/

/-- C82. In both builds, for all arguments other than `i64::MIN`: `lcm(0, 0)` panics, and
otherwise the result is the least common multiple with the sign of `a * b`, if that fits `i64`
(panicking or wrapping around if it does not). -/
theorem C82_lcm (bd : Build) (a b : Int) (ha : I64.InRange a) (hb : I64.InRange b)
    (ha' : a ≠ I64.MIN) (hb' : b ≠ I64.MIN) :
    Integer.lcm bd a b =
      if a = 0 ∧ b = 0 then .panic .divByZero
      else I64.norm bd (Int.sign (a * b) * Int.lcm a b) := by
  unfold Integer.lcm
  rw [C01_gcd_total bd a b ha hb ha' hb', bind_ok]
  by_cases h0 : a = 0 ∧ b = 0
  · rw [if_pos h0, h0.1, h0.2]; rfl
  · rw [if_neg h0]
    have hg : Int.gcd a b ≠ 0 := by rw [Ne, Int.gcd_eq_zero_iff]; exact h0
    have hg' : (Int.gcd a b : Int) ≠ 0 := by exact_mod_cast hg
    rw [Integer.div, if_neg hg', if_neg (fun h => ha' h.1), bind_ok, Integer.mul]
    congr 1
    obtain ⟨a₁, ha₁⟩ := Int.gcd_dvd_left a b
    have e : Int.tdiv a (Int.gcd a b) = a₁ := by
      have : Int.tdiv ((Int.gcd a b : Int) * a₁) (Int.gcd a b) = a₁ :=
        Int.mul_tdiv_cancel_left _ hg'
      rwa [← ha₁] at this
    rw [e]
    have habs : ((a₁ * b).natAbs : Int) = Int.lcm a b := by
      have h1 : Int.gcd a b * Int.lcm a b = (a * b).natAbs := by
        rw [Int.gcd_mul_lcm, Int.natAbs_mul]
      have h2 : (a * b).natAbs = Int.gcd a b * (a₁ * b).natAbs := by
        have : (a * b).natAbs = ((Int.gcd a b : Int) * a₁ * b).natAbs := by rw [← ha₁]
        rw [this, mul_assoc, Int.natAbs_mul, Int.natAbs_natCast]
      rw [h2] at h1
      exact_mod_cast (Nat.eq_of_mul_eq_mul_left (Nat.pos_of_ne_zero hg) h1).symm
    have hs : Int.sign (a * b) = Int.sign (a₁ * b) := by
      have : Int.sign (a * b) = Int.sign ((Int.gcd a b : Int) * a₁ * b) := by rw [← ha₁]
      rw [this, mul_assoc, Int.sign_mul, Int.sign_eq_one_of_pos (by omega), one_mul]
    rw [hs, ← habs, Int.sign_mul_natAbs]

example : Integer.lcm .debug (-4) 6 = .ok (-12) := by decide
example : Integer.lcm .debug (-4) (-6) = .ok 12 := by decide

/-! ## C83 powers on every exponent -/

/-- C83. `pow` raises numerator and denominator to the exponent modulo `2^32`; for a negative
exponent it swaps them first, and does not normalise the sign. -/
theorem C83_pow (x : Rational) (e : Int) :
    Spec IsOverflow (Rational.pow .debug x e) (fun z =>
      (0 ≤ e → z = ⟨x.numer ^ (e % 4294967296).toNat, x.denom ^ (e % 4294967296).toNat⟩) ∧
      (e < 0 → z = ⟨x.denom ^ (-e % 4294967296).toNat, x.numer ^ (-e % 4294967296).toNat⟩)) := by
  unfold Rational.pow
  by_cases he : e < 0
  · rw [if_pos (by simpa [Integer.isNeg] using he)]
    refine (Integer.neg_spec _).bind ?_
    rintro _ rfl
    refine (Integer.pow_spec _ _).bind ?_
    rintro _ rfl
    refine (Integer.neg_spec _).bind ?_
    rintro _ rfl
    refine (Integer.pow_spec _ _).bind ?_
    rintro _ rfl
    exact ⟨fun h => absurd he (not_lt.mpr h), fun _ => rfl⟩
  · rw [if_neg (by simpa [Integer.isNeg] using he)]
    refine (Integer.pow_spec _ _).bind ?_
    rintro _ rfl
    refine (Integer.pow_spec _ _).bind ?_
    rintro _ rfl
    exact ⟨fun _ => rfl, fun h => absurd h he⟩

example : Rational.pow .debug ⟨-2, 3⟩ (-3) = .ok ⟨27, -8⟩ := by decide

/-! ## C84 when rational operations succeed -/

theorem norm_debug_eq_ok {x z : Int} : I64.norm .debug x = .ok z ↔ z = x ∧ I64.InRange x := by
  unfold I64.norm
  split
  · rename_i h; simp [h, eq_comm]
  · rename_i h; simp [h]

/-- C84 for addition: with overflow checks, `x + y` returns exactly when the two cross products,
their sum and (unless the sum is zero) the product of the denominators fit `i64`; the result is
that unreduced fraction. -/
theorem C84_add (x y z : Rational) :
    Rational.add .debug x y = .ok z ↔
      I64.InRange (x.numer * y.denom) ∧ I64.InRange (y.numer * x.denom) ∧
      I64.InRange (x.numer * y.denom + y.numer * x.denom) ∧
      ((x.numer * y.denom + y.numer * x.denom = 0 ∧ z = Rational.ZERO) ∨
       (x.numer * y.denom + y.numer * x.denom ≠ 0 ∧ I64.InRange (x.denom * y.denom) ∧
        z = ⟨x.numer * y.denom + y.numer * x.denom, x.denom * y.denom⟩)) := by
  unfold Rational.add Integer.mul Integer.add
  simp only [bind_eq_ok, norm_debug_eq_ok]
  constructor
  · rintro ⟨_, ⟨rfl, h1⟩, _, ⟨rfl, h2⟩, _, ⟨rfl, h3⟩, h⟩
    refine ⟨h1, h2, h3, ?_⟩
    split at h
    · rename_i h0
      cases h
      exact Or.inl ⟨by simpa [Integer.isZero] using h0, rfl⟩
    · rename_i h0
      simp only [bind_eq_ok, norm_debug_eq_ok] at h
      obtain ⟨_, ⟨rfl, h4⟩, h⟩ := h
      cases h
      exact Or.inr ⟨by simpa [Integer.isZero] using h0, h4, rfl⟩
  · rintro ⟨h1, h2, h3, h⟩
    refine ⟨_, ⟨rfl, h1⟩, _, ⟨rfl, h2⟩, _, ⟨rfl, h3⟩, ?_⟩
    rcases h with ⟨h0, rfl⟩ | ⟨h0, h4, rfl⟩
    · rw [if_pos (by simpa [Integer.isZero] using h0)]; rfl
    · rw [if_neg (by simpa [Integer.isZero] using h0), I64.norm_eq h4]; rfl

/-- C84 for subtraction. -/
theorem C84_sub (x y z : Rational) :
    Rational.sub .debug x y = .ok z ↔
      I64.InRange (x.numer * y.denom) ∧ I64.InRange (y.numer * x.denom) ∧
      I64.InRange (x.numer * y.denom - y.numer * x.denom) ∧
      ((x.numer * y.denom - y.numer * x.denom = 0 ∧ z = Rational.ZERO) ∨
       (x.numer * y.denom - y.numer * x.denom ≠ 0 ∧ I64.InRange (x.denom * y.denom) ∧
        z = ⟨x.numer * y.denom - y.numer * x.denom, x.denom * y.denom⟩)) := by
  unfold Rational.sub Integer.mul Integer.sub
  simp only [bind_eq_ok, norm_debug_eq_ok]
  constructor
  · rintro ⟨_, ⟨rfl, h1⟩, _, ⟨rfl, h2⟩, _, ⟨rfl, h3⟩, h⟩
    refine ⟨h1, h2, h3, ?_⟩
    split at h
    · rename_i h0
      cases h
      exact Or.inl ⟨by simpa [Integer.isZero] using h0, rfl⟩
    · rename_i h0
      simp only [bind_eq_ok, norm_debug_eq_ok] at h
      obtain ⟨_, ⟨rfl, h4⟩, h⟩ := h
      cases h
      exact Or.inr ⟨by simpa [Integer.isZero] using h0, h4, rfl⟩
  · rintro ⟨h1, h2, h3, h⟩
    refine ⟨_, ⟨rfl, h1⟩, _, ⟨rfl, h2⟩, _, ⟨rfl, h3⟩, ?_⟩
    rcases h with ⟨h0, rfl⟩ | ⟨h0, h4, rfl⟩
    · rw [if_pos (by simpa [Integer.isZero] using h0)]; rfl
    · rw [if_neg (by simpa [Integer.isZero] using h0), I64.norm_eq h4]; rfl

/-- C84 for `new`: the constructor returns exactly when the denominator is nonzero and no step
overflows, which for `i64` arguments means that the denominator is not `i64::MIN` and that the
numerator is not `i64::MIN` when the denominator is negative. -/
theorem C84_new (n d : Int) (hn : I64.InRange n) (hd : I64.InRange d) :
    (∃ z, Rational.new .debug n d = .ok z) ↔ d ≠ 0 ∧ d ≠ I64.MIN ∧ (d < 0 → n ≠ I64.MIN) := by
  unfold Rational.new Integer.mul Integer.abs Integer.sgn
  constructor
  · rintro ⟨z, h⟩
    split at h
    · cases h
    · rename_i h0
      have h0' : d ≠ 0 := by simpa [Integer.isZero] using h0
      simp only [bind_eq_ok, norm_debug_eq_ok] at h
      obtain ⟨g, -, _, ⟨rfl, h1⟩, _, -, _, ⟨rfl, h2⟩, -⟩ := h
      refine ⟨h0', ?_, fun hneg hmin => ?_⟩
      · rintro rfl
        unfold I64.InRange I64.MIN at h2
        simp at h2
      · rw [Int.sign_eq_neg_one_of_neg hneg, hmin] at h1
        revert h1; decide
  · rintro ⟨h0, h1, h2⟩
    rw [if_neg (by simpa [Integer.isZero] using h0), Integer.gcd_eq .debug n d hn hd]
    have hne : ¬ ((n = I64.MIN ∧ d = -1) ∨ (n = -1 ∧ d = I64.MIN)) := by
      rintro (⟨h3, h4⟩ | ⟨h3, h4⟩)
      · exact h2 (by omega) h3
      · exact h1 h4
    have hg : 0 < Int.gcd n d := Int.gcd_pos_of_ne_zero_right n h0
    have hgd : Int.gcd n d ≤ d.natAbs := Int.gcd_le_natAbs_right n h0
    have hgr : I64.InRange (Int.gcd n d) := by
      unfold I64.InRange I64.MIN at *; omega
    have hsn : I64.InRange (d.sign * n) := by
      rcases lt_or_gt_of_ne h0 with h | h
      · have := h2 h
        rw [Int.sign_eq_neg_one_of_neg h]; unfold I64.InRange I64.MIN at *; omega
      · rw [Int.sign_eq_one_of_pos h]; simpa using hn
    have had : I64.InRange (d.natAbs : Int) := by unfold I64.InRange I64.MIN at *; omega
    rw [if_neg hne, I64.norm_eq hgr, bind_ok, I64.norm_eq hsn, bind_ok, Integer.div,
      if_neg (by omega), if_neg (by omega), bind_ok, I64.norm_eq had, bind_ok, Integer.div,
      if_neg (by omega), if_neg (by omega)]
    exact ⟨_, rfl⟩

/-- C84 for multiplication of rationals with positive denominators: it returns exactly when the
products of the numerators and of the denominators fit `i64`. -/
theorem C84_mul (x y : Rational) (hx : 0 < x.denom) (hy : 0 < y.denom) :
    (∃ z, Rational.mul .debug x y = .ok z) ↔
      I64.InRange (x.numer * y.numer) ∧ I64.InRange (x.denom * y.denom) := by
  have hp : 0 < x.denom * y.denom := mul_pos hx hy
  unfold Rational.mul Integer.mul
  constructor
  · rintro ⟨z, h⟩
    simp only [bind_eq_ok, norm_debug_eq_ok] at h
    obtain ⟨_, ⟨rfl, h1⟩, _, ⟨rfl, h2⟩, -⟩ := h
    exact ⟨h1, h2⟩
  · rintro ⟨h1, h2⟩
    rw [I64.norm_eq h1, bind_ok, I64.norm_eq h2, bind_ok]
    exact (C84_new _ _ h1 h2).mpr ⟨by omega, by unfold I64.MIN; omega, fun h => by omega⟩

/-- C84 for division of rationals with positive denominators. -/
theorem C84_div (x y : Rational) (hx : 0 < x.denom) :
    (∃ z, Rational.div .debug x y = .ok z) ↔
      I64.InRange (x.numer * y.denom) ∧ I64.InRange (x.denom * y.numer) ∧ y.numer ≠ 0 ∧
      x.denom * y.numer ≠ I64.MIN ∧ (y.numer < 0 → x.numer * y.denom ≠ I64.MIN) := by
  unfold Rational.div Integer.mul
  have e1 : x.denom * y.numer ≠ 0 ↔ y.numer ≠ 0 := by
    rw [Ne, mul_eq_zero]; omega
  have e2 : x.denom * y.numer < 0 ↔ y.numer < 0 := mul_neg_iff.trans (by omega)
  constructor
  · rintro ⟨z, h⟩
    simp only [bind_eq_ok, norm_debug_eq_ok] at h
    obtain ⟨_, ⟨rfl, h1⟩, _, ⟨rfl, h2⟩, h⟩ := h
    obtain ⟨h3, h4, h5⟩ := (C84_new _ _ h1 h2).mp ⟨z, h⟩
    exact ⟨h1, h2, e1.mp h3, h4, fun h => h5 (e2.mpr h)⟩
  · rintro ⟨h1, h2, h3, h4, h5⟩
    rw [I64.norm_eq h1, bind_ok, I64.norm_eq h2, bind_ok]
    exact (C84_new _ _ h1 h2).mpr ⟨e1.mpr h3, h4, fun h => h5 (e2.mp h)⟩

/-- C84 for negation, reciprocal and comparison. -/
theorem C84_others (x y : Rational) :
    (∀ z, Rational.neg .debug x = .ok z ↔ I64.InRange (-x.numer) ∧ z = ⟨-x.numer, x.denom⟩) ∧
    (∀ z, Rational.recip .debug x = .ok z ↔ I64.InRange (x.numer.sign * x.denom) ∧
      I64.InRange (x.numer.sign * x.numer) ∧ z = ⟨x.numer.sign * x.denom, x.numer.sign * x.numer⟩) ∧
    (∀ o, Rational.cmp .debug x y = .ok o ↔ I64.InRange (x.numer * y.denom) ∧
      I64.InRange (y.numer * x.denom) ∧ o = compare (x.numer * y.denom) (y.numer * x.denom)) := by
  refine ⟨fun z => ?_, fun z => ?_, fun z => ?_⟩
  · unfold Rational.neg Integer.neg
    simp only [bind_eq_ok, norm_debug_eq_ok]
    constructor
    · rintro ⟨_, ⟨rfl, h⟩, h2⟩; cases h2; exact ⟨h, rfl⟩
    · rintro ⟨h, rfl⟩; exact ⟨_, ⟨rfl, h⟩, rfl⟩
  · unfold Rational.recip Integer.mul Rational.sgn Integer.sgn
    simp only [bind_eq_ok, norm_debug_eq_ok]
    constructor
    · rintro ⟨_, ⟨rfl, h⟩, _, ⟨rfl, h'⟩, h2⟩; cases h2; exact ⟨h, h', rfl⟩
    · rintro ⟨h, h', rfl⟩; exact ⟨_, ⟨rfl, h⟩, _, ⟨rfl, h'⟩, rfl⟩
  · unfold Rational.cmp Integer.mul
    simp only [bind_eq_ok, norm_debug_eq_ok]
    constructor
    · rintro ⟨_, ⟨rfl, h⟩, _, ⟨rfl, h'⟩, h2⟩; cases h2; exact ⟨h, h', rfl⟩
    · rintro ⟨h, h', rfl⟩; exact ⟨_, ⟨rfl, h⟩, _, ⟨rfl, h'⟩, rfl⟩

/-- An addition that overflows although its exact result, 2/3037000507, is a small fraction. -/
example : Rational.add .debug ⟨1, 3037000507⟩ ⟨1, 3037000507⟩ = .panic .overflowI64 := by decide

end Verif
