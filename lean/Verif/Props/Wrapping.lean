import Verif.Props.Exact
import Verif.Props.IntRat
import Mathlib.Data.Int.ModEq

/-!
# Properties C158 and C159: integers and rationals in builds without overflow checks
-/

namespace Verif
open Res

namespace I64

theorem wrap_inRange (x : ℤ) : InRange (wrap x) := by
  unfold InRange wrap
  have h1 := Int.le_bmod (x := x) (m := 18446744073709551616) (by decide)
  have h2 := Int.bmod_lt (x := x) (m := 18446744073709551616) (by decide)
  omega

theorem wrap_modEq (x : ℤ) : wrap x ≡ x [ZMOD 18446744073709551616] := Int.bmod_emod

theorem wrap_of_inRange {x : ℤ} (h : InRange x) : wrap x = x := by
  unfold InRange at h
  unfold wrap
  exact Int.bmod_eq_of_le (by omega) (by omega)

theorem norm_release (x : ℤ) : norm .release x = .ok (wrap x) := by
  unfold norm
  split
  · rename_i h; rw [wrap_of_inRange h]
  · rfl

/-- Two values of `i64` that are congruent are equal. -/
theorem eq_of_modEq {x y : ℤ} (hx : InRange x) (hy : InRange y)
    (h : x ≡ y [ZMOD 18446744073709551616]) : x = y := by
  unfold InRange at *
  obtain ⟨k, hk⟩ := h.dvd
  omega

end I64

namespace Integer

/-- The value of `i64` that is congruent to `v` modulo `2^64`. -/
def Wraps (r : Res ℤ) (v : ℤ) : Prop :=
  ∃ z, r = .ok z ∧ I64.InRange z ∧ z ≡ v [ZMOD 2 ^ 64]

theorem norm_wraps (v : ℤ) : Wraps (I64.norm .release v) v :=
  ⟨_, I64.norm_release v, I64.wrap_inRange v, I64.wrap_modEq v⟩

/-- C158 for integers: without overflow checks the operations return the value of `i64` congruent to
the exact result modulo `2^64`. -/
theorem C158_integer (x y : ℤ) :
    Wraps (add .release x y) (x + y) ∧ Wraps (sub .release x y) (x - y) ∧
    Wraps (mul .release x y) (x * y) ∧ Wraps (neg .release x) (-x) ∧
    Wraps (abs .release x) |x| ∧ Wraps (pow .release x y) (x ^ (y % 2 ^ 32).toNat) := by
  refine ⟨norm_wraps _, norm_wraps _, norm_wraps _, norm_wraps _, ?_, norm_wraps _⟩
  rw [Int.abs_eq_natAbs]
  exact norm_wraps _

end Integer

namespace Rational

/-- C158 for sums, differences, negatives and reciprocals of rationals: numerator and denominator are
computed modulo `2^64`, and a numerator that is a multiple of `2^64` gives zero. -/
theorem C158_linear (x y : Rational) :
    (∃ z, add .release x y = .ok z ∧
      (if 2 ^ 64 ∣ x.numer * y.denom + y.numer * x.denom then z = ZERO else
        I64.InRange z.numer ∧ I64.InRange z.denom ∧
        z.numer ≡ x.numer * y.denom + y.numer * x.denom [ZMOD 2 ^ 64] ∧
        z.denom ≡ x.denom * y.denom [ZMOD 2 ^ 64])) ∧
    (∃ z, sub .release x y = .ok z ∧
      (if 2 ^ 64 ∣ x.numer * y.denom - y.numer * x.denom then z = ZERO else
        I64.InRange z.numer ∧ I64.InRange z.denom ∧
        z.numer ≡ x.numer * y.denom - y.numer * x.denom [ZMOD 2 ^ 64] ∧
        z.denom ≡ x.denom * y.denom [ZMOD 2 ^ 64])) ∧
    (∃ z, neg .release x = .ok z ∧ I64.InRange z.numer ∧
      z.numer ≡ -x.numer [ZMOD 2 ^ 64] ∧ z.denom = x.denom) ∧
    (∃ z, recip .release x = .ok z ∧ I64.InRange z.numer ∧ I64.InRange z.denom ∧
      z.numer ≡ x.numer.sign * x.denom [ZMOD 2 ^ 64] ∧
      z.denom ≡ |x.numer| [ZMOD 2 ^ 64]) := by
  have key : ∀ (op : ℤ → ℤ → Res ℤ) (f : ℤ → ℤ → ℤ),
      (∀ u v, op u v = .ok (I64.wrap (f u v))) →
      (∀ u v, f (I64.wrap u) (I64.wrap v) ≡ f u v [ZMOD 18446744073709551616]) →
      ∃ z, (do
        let p ← Integer.mul .release x.numer y.denom
        let q ← Integer.mul .release y.numer x.denom
        let numer ← op p q
        if Integer.isZero numer then pure ZERO
        else do
          let d ← Integer.mul .release x.denom y.denom
          pure (newUnchecked numer d)) = Res.ok z ∧
        (if 2 ^ 64 ∣ f (x.numer * y.denom) (y.numer * x.denom) then z = ZERO else
          I64.InRange z.numer ∧ I64.InRange z.denom ∧
          z.numer ≡ f (x.numer * y.denom) (y.numer * x.denom) [ZMOD 2 ^ 64] ∧
          z.denom ≡ x.denom * y.denom [ZMOD 2 ^ 64]) := by
    intro op f h1 h2
    simp only [Integer.mul, I64.norm_release, bind_ok, h1]
    have hN := (I64.wrap_modEq (f (I64.wrap (x.numer * y.denom)) (I64.wrap (y.numer * x.denom)))).trans
      (h2 (x.numer * y.denom) (y.numer * x.denom))
    have hR := I64.wrap_inRange (f (I64.wrap (x.numer * y.denom)) (I64.wrap (y.numer * x.denom)))
    generalize I64.wrap (f (I64.wrap (x.numer * y.denom)) (I64.wrap (y.numer * x.denom))) = N at hN hR
    by_cases h0 : N = 0
    · subst h0
      refine ⟨ZERO, rfl, ?_⟩
      rw [if_pos]
      exact Int.modEq_zero_iff_dvd.mp hN.symm
    · refine ⟨⟨N, I64.wrap (x.denom * y.denom)⟩, ?_, ?_⟩
      · rw [if_neg (by simpa [Integer.isZero] using h0)]; rfl
      · rw [if_neg]
        · exact ⟨hR, I64.wrap_inRange _, hN, I64.wrap_modEq _⟩
        · intro hd
          exact h0 (I64.eq_of_modEq hR (by decide) (hN.trans (Int.modEq_zero_iff_dvd.mpr hd)))
  refine ⟨key (Integer.add .release) (· + ·) (fun _ _ => I64.norm_release _)
    (fun u v => (I64.wrap_modEq u).add (I64.wrap_modEq v)),
    key (Integer.sub .release) (· - ·) (fun _ _ => I64.norm_release _)
    (fun u v => (I64.wrap_modEq u).sub (I64.wrap_modEq v)), ?_, ?_⟩
  · refine ⟨⟨I64.wrap (-x.numer), x.denom⟩, ?_, I64.wrap_inRange _, I64.wrap_modEq _, rfl⟩
    simp only [neg, Integer.neg, I64.norm_release, bind_ok]; rfl
  · refine ⟨⟨I64.wrap (x.numer.sign * x.denom), I64.wrap (x.numer.sign * x.numer)⟩, ?_,
      I64.wrap_inRange _, I64.wrap_inRange _, I64.wrap_modEq _, ?_⟩
    · simp only [recip, Integer.mul, I64.norm_release, bind_ok]; rfl
    · rw [← Int.sign_mul_self_eq_abs]
      exact I64.wrap_modEq _

/-- C158 for `new`: without overflow checks it panics on a zero denominator and on the pairs
`(MIN, -1)` and `(-1, MIN)`. In all other cases it cancels the greatest common divisor; the denominator
is positive and the value is right, except that a denominator of `MIN` stays negative and that the sign
of the value is wrong for a negative denominator when exactly one of the arguments is `MIN`. -/
theorem C158_new (n d : ℤ) (hn : I64.InRange n) (hd : I64.InRange d) :
    (d = 0 → new .release n d = .panic (.explicit "denominator cannot be zero")) ∧
    ((n = I64.MIN ∧ d = -1) ∨ (n = -1 ∧ d = I64.MIN) → new .release n d = .panic .overflowI64) ∧
    (d ≠ 0 → ¬ ((n = I64.MIN ∧ d = -1) ∨ (n = -1 ∧ d = I64.MIN)) →
      ∃ z, new .release n d = .ok z ∧
      z.numer.natAbs * Int.gcd n d = n.natAbs ∧ z.denom.natAbs * Int.gcd n d = d.natAbs ∧
      (0 < z.denom ↔ d ≠ I64.MIN ∨ n = I64.MIN ∨ n = 0) ∧
      z.numer * d =
        (if d < 0 ∧ ¬ (n = I64.MIN ↔ d = I64.MIN) then -1 else 1) * (n * z.denom)) := by
  refine ⟨?_, ?_, fun h0 hne => ?_⟩
  · rintro rfl; rfl
  · rintro (⟨rfl, rfl⟩ | ⟨rfl, rfl⟩) <;> decide +kernel
  by_cases hb : d = I64.MIN ∧ (n = 0 ∨ n = I64.MIN)
  · obtain ⟨rfl, rfl | rfl⟩ := hb
    · exact ⟨⟨0, 1⟩, by decide +kernel, by decide +kernel, by decide +kernel, by decide +kernel,
        by decide +kernel⟩
    · exact ⟨⟨1, 1⟩, by decide +kernel, by decide +kernel, by decide +kernel, by decide +kernel,
        by decide +kernel⟩
  have hg : 0 < Int.gcd n d := Int.gcd_pos_of_ne_zero_right n h0
  have hg' : (Int.gcd n d : Int) ≠ 0 := by exact_mod_cast hg.ne'
  have hgr : I64.InRange (Int.gcd n d) := by
    have h1 : Int.gcd n d ≤ d.natAbs := Int.gcd_le_natAbs_right n h0
    have h2 : n ≠ 0 → Int.gcd n d ≤ n.natAbs := fun h => Int.gcd_le_natAbs_left d h
    unfold I64.InRange I64.MIN at *
    omega
  obtain ⟨n₁, hn₁⟩ := Int.gcd_dvd_left n d
  obtain ⟨d₁, hd₁⟩ := Int.gcd_dvd_right n d
  have key : ∀ s t : ℤ, (s = 1 ∨ s = -1) → (t = 1 ∨ t = -1) → I64.wrap (d.sign * n) = s * n →
      I64.wrap d.natAbs = t * d →
      (new .release n d = .ok ⟨s * n₁, t * d₁⟩ ∧
        (s * n₁).natAbs * Int.gcd n d = n.natAbs ∧ (t * d₁).natAbs * Int.gcd n d = d.natAbs ∧
        (0 < t * d₁ ↔ 0 < t * d) ∧ (s * n₁) * d = (s * t) * (n * (t * d₁))) := by
    intro s t hs ht h1 h2
    have e1 : (s * n).tdiv (Int.gcd n d) = s * n₁ := by
      have h : s * n = (Int.gcd n d : Int) * (s * n₁) := by
        calc s * n = s * ((Int.gcd n d : Int) * n₁) := by rw [← hn₁]
          _ = _ := by ring
      rw [h, Int.mul_tdiv_cancel_left _ hg']
    have e2 : (t * d).tdiv (Int.gcd n d) = t * d₁ := by
      have h : t * d = (Int.gcd n d : Int) * (t * d₁) := by
        calc t * d = t * ((Int.gcd n d : Int) * d₁) := by rw [← hd₁]
          _ = _ := by ring
      rw [h, Int.mul_tdiv_cancel_left _ hg']
    refine ⟨?_, ?_, ?_, ?_, ?_⟩
    · unfold new Integer.mul Integer.abs Integer.sgn
      rw [if_neg (by simpa [Integer.isZero] using h0), Integer.gcd_eq _ _ _ hn hd, if_neg hne,
        I64.norm_eq hgr, bind_ok, I64.norm_release, bind_ok, Integer.div, if_neg hg',
        if_neg (by omega), bind_ok, I64.norm_release, bind_ok, Integer.div, if_neg hg',
        if_neg (by omega), h1, h2, e1, e2]
      rfl
    · have := congrArg Int.natAbs hn₁
      rw [Int.natAbs_mul, Int.natAbs_natCast] at this
      rw [Int.natAbs_mul, mul_comm, this]
      rcases hs with rfl | rfl <;> simp
    · have := congrArg Int.natAbs hd₁
      rw [Int.natAbs_mul, Int.natAbs_natCast] at this
      rw [Int.natAbs_mul, mul_comm, this]
      rcases ht with rfl | rfl <;> simp
    · have : t * d = (Int.gcd n d : Int) * (t * d₁) := by
        calc t * d = t * ((Int.gcd n d : Int) * d₁) := by rw [← hd₁]
          _ = _ := by ring
      rw [this]
      exact (mul_pos_iff_of_pos_left (by omega)).symm
    · have ht2 : t * t = 1 := by rcases ht with rfl | rfl <;> rfl
      calc (s * n₁) * d = s * (n₁ * ((Int.gcd n d : Int) * d₁)) := by rw [← hd₁]; ring
        _ = s * (((Int.gcd n d : Int) * n₁) * d₁) * 1 := by ring
        _ = s * (n * d₁) * (t * t) := by rw [← hn₁, ht2]
        _ = _ := by ring
  have wmin : I64.wrap (-I64.MIN) = I64.MIN := by decide +kernel
  have dmin : d = I64.MIN ∨ d ≠ I64.MIN := em _
  rcases dmin with hdm | hdm
  · have hnr : I64.InRange (-n) := by unfold I64.InRange I64.MIN at *; omega
    have hneg : d < 0 := by rw [hdm]; decide
    obtain ⟨k1, k2, k3, k4, k5⟩ := key (-1) 1 (by simp) (by simp)
      (by rw [Int.sign_eq_neg_one_of_neg hneg, neg_one_mul, I64.wrap_of_inRange hnr])
      (by rw [Int.ofNat_natAbs_of_nonpos hneg.le, hdm, wmin, one_mul])
    refine ⟨_, k1, k2, k3, ?_, ?_⟩
    · exact k4.trans (by omega)
    · rw [if_pos ⟨hneg, by tauto⟩]; exact k5
  · have hdr : I64.InRange d.natAbs := by unfold I64.InRange I64.MIN at *; omega
    rcases lt_or_gt_of_ne h0 with hneg | hpos
    · by_cases hnm : n = I64.MIN
      · obtain ⟨k1, k2, k3, k4, k5⟩ := key 1 (-1) (by simp) (by simp)
          (by rw [Int.sign_eq_neg_one_of_neg hneg, neg_one_mul, hnm, wmin, one_mul])
          (by rw [I64.wrap_of_inRange hdr]; omega)
        refine ⟨_, k1, k2, k3, ?_, ?_⟩
        · exact k4.trans (by omega)
        · rw [if_pos ⟨hneg, by tauto⟩]; exact k5
      · have hnr : I64.InRange (-n) := by unfold I64.InRange I64.MIN at *; omega
        obtain ⟨k1, k2, k3, k4, k5⟩ := key (-1) (-1) (by simp) (by simp)
          (by rw [Int.sign_eq_neg_one_of_neg hneg, neg_one_mul, I64.wrap_of_inRange hnr])
          (by rw [I64.wrap_of_inRange hdr]; omega)
        refine ⟨_, k1, k2, k3, ?_, ?_⟩
        · exact k4.trans (by omega)
        · rw [if_neg (by tauto)]; exact k5
    · obtain ⟨k1, k2, k3, k4, k5⟩ := key 1 1 (by simp) (by simp)
        (by rw [Int.sign_eq_one_of_pos hpos, I64.wrap_of_inRange (by simpa using hn)])
        (by rw [I64.wrap_of_inRange hdr]; omega)
      refine ⟨_, k1, k2, k3, ?_, ?_⟩
      · exact k4.trans (by omega)
      · rw [if_neg (by omega)]; exact k5

/-- C158 for products and quotients: `new` of the products modulo `2^64`. -/
theorem C158_mul (x y : Rational) :
    (∃ n d, I64.InRange n ∧ I64.InRange d ∧ n ≡ x.numer * y.numer [ZMOD 2 ^ 64] ∧
      d ≡ x.denom * y.denom [ZMOD 2 ^ 64] ∧ mul .release x y = new .release n d) ∧
    (∃ n d, I64.InRange n ∧ I64.InRange d ∧ n ≡ x.numer * y.denom [ZMOD 2 ^ 64] ∧
      d ≡ x.denom * y.numer [ZMOD 2 ^ 64] ∧ div .release x y = new .release n d) := by
  refine ⟨⟨_, _, I64.wrap_inRange _, I64.wrap_inRange _, I64.wrap_modEq _, I64.wrap_modEq _, ?_⟩,
    ⟨_, _, I64.wrap_inRange _, I64.wrap_inRange _, I64.wrap_modEq _, I64.wrap_modEq _, ?_⟩⟩
  · simp only [mul, Integer.mul, I64.norm_release, bind_ok]
  · simp only [div, Integer.mul, I64.norm_release, bind_ok]

/-- The pairs on which `new` goes wrong without overflow checks. -/
example :
    new .release 1 I64.MIN = .ok ⟨-1, I64.MIN⟩ ∧ new .release I64.MIN (-2) = .ok ⟨-2 ^ 62, 1⟩ ∧
    new .release I64.MIN (-1) = .panic .overflowI64 ∧ new .release 6 (-4) = .ok ⟨-3, 2⟩ := by
  decide +kernel

/-- C159 is false: without overflow checks the sum of two rationals in lowest terms can have the
denominator zero, their product can panic, and a sum can be zero, or a comparison equal, for values
that are not. -/
theorem C159_refuted :
    Simplest ⟨1, 2 ^ 32⟩ ∧ add .release ⟨1, 2 ^ 32⟩ ⟨1, 2 ^ 32⟩ = .ok ⟨2 ^ 33, 0⟩ ∧
    mul .release ⟨1, 2 ^ 32⟩ ⟨1, 2 ^ 32⟩ = .panic (.explicit "denominator cannot be zero") ∧
    add .release ⟨2 ^ 62, 1⟩ ⟨2 ^ 62, 1⟩ = .ok ⟨-2 ^ 63, 1⟩ ∧
    add .release ⟨-2 ^ 63, 1⟩ ⟨-2 ^ 63, 1⟩ = .ok ZERO := by
  refine ⟨⟨by decide, by decide +kernel⟩, ?_⟩
  decide +kernel

/-- C159, the part that holds: in both builds, if numerators and denominators are below `2^31` in absolute
value then sums, differences, products, quotients, negatives, reciprocals and comparisons are
returned, well formed and exact. Missing: larger operands, where debug builds may panic and release
builds may wrap around. -/
theorem C159_partial (b : Build) (x y : Rational) (hx : WF x) (hy : WF y)
    (h1 : |x.numer| < 2 ^ 31) (h2 : x.denom < 2 ^ 31) (h3 : |y.numer| < 2 ^ 31)
    (h4 : y.denom < 2 ^ 31) :
    (∃ z, add b x y = .ok z ∧ WF z ∧ z.val = x.val + y.val) ∧
    (∃ z, sub b x y = .ok z ∧ WF z ∧ z.val = x.val - y.val) ∧
    (∃ z, mul b x y = .ok z ∧ WF z ∧ z.val = x.val * y.val) ∧
    (y.numer ≠ 0 → ∃ z, div b x y = .ok z ∧ WF z ∧ z.val = x.val / y.val) ∧
    (∃ z, neg b x = .ok z ∧ WF z ∧ z.val = -x.val) ∧
    (x.numer ≠ 0 → ∃ z, recip b x = .ok z ∧ WF z ∧ z.val = x.val⁻¹) ∧
    cmp b x y = .ok (compare x.val y.val) := by
  have hx0 := hx.denom_pos
  have hy0 := hy.denom_pos
  have bd : ∀ u v : ℤ, |u| < 2 ^ 31 → |v| < 2 ^ 31 → |u * v| < 2 ^ 62 := by
    intro u v hu hv
    rw [abs_mul]
    calc |u| * |v| < 2 ^ 31 * 2 ^ 31 := mul_lt_mul'' hu hv (abs_nonneg _) (abs_nonneg _)
      _ = 2 ^ 62 := by norm_num
  have h2' : |x.denom| < 2 ^ 31 := by rw [abs_of_pos hx0]; exact h2
  have h4' : |y.denom| < 2 ^ 31 := by rw [abs_of_pos hy0]; exact h4
  have b1 := bd _ _ h1 h4'
  have b2 := bd _ _ h3 h2'
  have b3 := bd _ _ h2' h4'
  have b4 := bd _ _ h1 h3
  have b5 := bd _ _ h2' h3
  have ir : ∀ u : ℤ, |u| < 2 ^ 62 → I64.InRange u := by
    intro u hu; rw [abs_lt] at hu; unfold I64.InRange; omega
  have ir2 : ∀ u v : ℤ, |u| < 2 ^ 62 → |v| < 2 ^ 62 → I64.InRange (u + v) ∧ I64.InRange (u - v) := by
    intro u v hu hv; rw [abs_lt] at hu hv; unfold I64.InRange; omega
  have nm : ∀ u : ℤ, |u| < 2 ^ 62 → u ≠ I64.MIN := by
    intro u hu; rw [abs_lt] at hu; unfold I64.MIN; omega
  have sg : ∀ u v : ℤ, |v| < 2 ^ 31 → I64.InRange (u.sign * v) := by
    intro u v hv
    rw [abs_lt] at hv
    unfold I64.InRange
    rcases Int.sign_trichotomy u with e | e | e <;> rw [e] <;> omega
  have v0 : ∀ u : Rational, 0 < u.denom → u.numer ≠ 0 → u.val ≠ 0 := by
    intro u hu h
    exact div_ne_zero (by exact_mod_cast h) (by exact_mod_cast hu.ne')
  refine ⟨?_, ?_, ?_, fun h => ?_, ?_, fun h => ?_, ?_⟩
  · by_cases h : x.numer * y.denom + y.numer * x.denom = 0
    · have e := (C84_add x y ZERO).mpr ⟨ir _ b1, ir _ b2, (ir2 _ _ b1 b2).1, .inl ⟨h, rfl⟩⟩
      exact ⟨_, toRelease b (f := fun b => add b x y) (add_refines x y) e,
        (add_spec x y hx0 hy0).of_ok e⟩
    · have e := (C84_add x y _).mpr ⟨ir _ b1, ir _ b2, (ir2 _ _ b1 b2).1, .inr ⟨h, ir _ b3, rfl⟩⟩
      exact ⟨_, toRelease b (f := fun b => add b x y) (add_refines x y) e,
        (add_spec x y hx0 hy0).of_ok e⟩
  · by_cases h : x.numer * y.denom - y.numer * x.denom = 0
    · have e := (C84_sub x y ZERO).mpr ⟨ir _ b1, ir _ b2, (ir2 _ _ b1 b2).2, .inl ⟨h, rfl⟩⟩
      exact ⟨_, toRelease b (f := fun b => sub b x y) (sub_refines x y) e,
        (sub_spec x y hx0 hy0).of_ok e⟩
    · have e := (C84_sub x y _).mpr ⟨ir _ b1, ir _ b2, (ir2 _ _ b1 b2).2, .inr ⟨h, ir _ b3, rfl⟩⟩
      exact ⟨_, toRelease b (f := fun b => sub b x y) (sub_refines x y) e,
        (sub_spec x y hx0 hy0).of_ok e⟩
  · obtain ⟨z, e⟩ := (C84_mul x y hx0 hy0).mpr ⟨ir _ b4, ir _ b3⟩
    have := (mul_spec x y hx0 hy0).of_ok e
    exact ⟨z, toRelease b (f := fun b => mul b x y) (mul_refines x y) e, this.1.wf, this.2⟩
  · obtain ⟨z, e⟩ := (C84_div x y hx0).mpr ⟨ir _ b1, ir _ b5, h, nm _ b5, fun _ => nm _ b1⟩
    have := (div_spec x y hx0 hy0 (v0 y hy0 h)).of_ok e
    exact ⟨z, toRelease b (f := fun b => div b x y) (div_refines x y) e, this.1.wf, this.2⟩
  · have hr : I64.InRange (-x.numer) := by
      rw [abs_lt] at h1; unfold I64.InRange; omega
    have e := ((C84_others x y).1 _).mpr ⟨hr, rfl⟩
    refine ⟨_, toRelease b (f := fun b => neg b x) (neg_refines x) e,
      ⟨hx0, fun h => hx.zero_canon (by simpa using h)⟩, ?_⟩
    unfold val; push_cast; ring
  · have e := ((C84_others x y).2.1 _).mpr ⟨sg _ _ h2', sg _ _ h1, rfl⟩
    have := (recip_spec x hx0 (v0 x hx0 h)).of_ok e
    exact ⟨_, toRelease b (f := fun b => recip b x) (recip_refines x) e,
      ⟨this.1, fun h => absurd h this.2.1⟩, this.2.2.2⟩
  · have e := ((C84_others x y).2.2 _).mpr ⟨ir _ b1, ir _ b2, rfl⟩
    rw [toRelease b (f := fun b => cmp b x y) (cmp_refines x y) e]
    rw [(cmp_spec x y hx0 hy0).of_ok e]

/-- The hypotheses of `C159_partial` are met by `-3/4` and `2/3`. -/
example :
    WF ⟨-3, 4⟩ ∧ WF ⟨2, 3⟩ ∧ add .release ⟨-3, 4⟩ ⟨2, 3⟩ = .ok ⟨-1, 12⟩ ∧
    div .release ⟨-3, 4⟩ ⟨2, 3⟩ = .ok ⟨-9, 8⟩ := by
  refine ⟨⟨by decide, by decide⟩, ⟨by decide, by decide⟩, ?_⟩
  decide +kernel

end Rational

end Verif
