import Verif.Proofs.Num
import Mathlib.RingTheory.Coprime.Lemmas

/-!
# Properties C01–C11 and C13: `Integer` and `Rational`

Each theorem is followed by a concrete instance.  `Spec IsOverflow x P` reads: the call `x`
terminates; if it returns, the result satisfies `P`; the only panic is `i64` overflow.
-/

namespace Verif
open Res

/-! ## C01 `Integer::gcd` -/

/-- C01. On every pair of `i64` values and in both builds, `gcd` terminates with: an overflow
panic on `(MIN, -1)` and `(-1, MIN)`; the greatest common divisor if that fits in `i64`; otherwise
(the gcd is `2^63`) the overflow behaviour of the build. -/
theorem C01_gcd (bd : Build) (a b : Int) (ha : I64.InRange a) (hb : I64.InRange b) :
    Integer.gcd bd a b =
      if (a = I64.MIN ∧ b = -1) ∨ (a = -1 ∧ b = I64.MIN) then .panic .overflowI64
      else I64.norm bd (Int.gcd a b) :=
  Integer.gcd_eq bd a b ha hb

/-- C01. With overflow checks, whatever `gcd` returns is the nonnegative greatest common divisor. -/
theorem C01_gcd_debug (a b : Int) :
    Spec IsOverflow (Integer.gcd .debug a b)
      (fun r => 0 ≤ r ∧ r ∣ a ∧ r ∣ b ∧ ∀ d, d ∣ a → d ∣ b → d ∣ r) := by
  refine (Integer.gcd_spec a b).imp ?_
  rintro r rfl
  exact ⟨Int.natCast_nonneg _, Int.gcd_dvd_left _ _, Int.gcd_dvd_right _ _,
    fun d h1 h2 => Int.dvd_coe_gcd h1 h2⟩

/-- C01. `gcd` returns the gcd, in both builds, whenever neither argument is `i64::MIN`. -/
theorem C01_gcd_total (bd : Build) (a b : Int) (ha : I64.InRange a) (hb : I64.InRange b)
    (ha' : a ≠ I64.MIN) (hb' : b ≠ I64.MIN) :
    Integer.gcd bd a b = .ok (Int.gcd a b : Int) := by
  rw [Integer.gcd_eq bd a b ha hb, if_neg (by tauto)]
  apply I64.norm_eq
  unfold I64.InRange I64.MIN at *
  rcases eq_or_ne a 0 with h | h
  · subst h; rw [Int.gcd_zero_left]; omega
  · have := Int.gcd_le_natAbs_left b h
    omega

example : Integer.gcd .debug (-12) 18 = .ok 6 := by decide
example : Integer.gcd .release I64.MIN 6 = .ok 2 := by decide

/-- C01, the exceptional cases: `gcd(MIN, -1)` panics in both builds although the gcd is 1, and in
a release build `gcd(MIN, 0)` is negative. -/
theorem C01_extremes :
    Integer.gcd .release I64.MIN (-1) = .panic .overflowI64 ∧
    Integer.gcd .debug I64.MIN 0 = .panic .overflowI64 ∧
    Integer.gcd .release I64.MIN 0 = .ok I64.MIN := by decide

/-! ## C02 `Integer::lcm` -/

/-- C02 is false as documented: `lcm(-2, 3)` is negative, and `lcm(0, 0)` (which is 0) panics. -/
theorem C02_refuted :
    Integer.lcm .debug (-2) 3 = .ok (-6) ∧ Integer.lcm .debug 0 0 = .panic .divByZero := by decide

/-- C02, the part that holds: unless both arguments are zero, `lcm` returns (or overflows) a
value whose absolute value is the least common multiple, and whose sign is that of `a * b`.
Missing: nonnegativity for arguments of opposite sign, and `lcm(0,0)`. -/
theorem C02_lcm_partial (a b : Int) (h : a ≠ 0 ∨ b ≠ 0) :
    Spec IsOverflow (Integer.lcm .debug a b)
      (fun r => r.natAbs = Int.lcm a b ∧ (0 ≤ a * b → r = Int.lcm a b)) := by
  unfold Integer.lcm
  have hg : (Int.gcd a b : Int) ≠ 0 := by
    have : Int.gcd a b ≠ 0 := by rw [Ne, Int.gcd_eq_zero_iff]; tauto
    exact_mod_cast this
  refine (Integer.gcd_spec a b).bind ?_
  rintro g rfl
  refine (Integer.div_spec _ _ hg).bind ?_
  rintro q rfl
  refine (Integer.mul_spec _ _).imp ?_
  rintro r rfl
  obtain ⟨a₁, ha₁⟩ := Int.gcd_dvd_left a b
  have e : Int.tdiv a (Int.gcd a b) = a₁ := by
    conv_lhs => rw [ha₁]
    rw [← ha₁]
    conv_lhs => arg 1; rw [ha₁]
    exact Int.mul_tdiv_cancel_left _ hg
  rw [e]
  have hab : Int.gcd a b * (a₁ * b) = a * b := by
    conv_rhs => rw [ha₁]
    ring
  have hn : (a₁ * b).natAbs = Int.lcm a b := by
    have h1 := Int.gcd_mul_lcm a b
    have h2 := congrArg Int.natAbs hab
    rw [Int.natAbs_mul, Int.natAbs_natCast] at h2
    have h3 : Int.gcd a b * (a₁ * b).natAbs = Int.gcd a b * Int.lcm a b := by
      rw [h2, h1, Int.natAbs_mul]
    exact Nat.eq_of_mul_eq_mul_left (by omega) h3
  refine ⟨hn, fun h0 => ?_⟩
  rw [← hn]
  have : 0 ≤ a₁ * b := by
    have hgp : (0 : Int) < Int.gcd a b := by omega
    rw [← hab] at h0
    exact nonneg_of_mul_nonneg_right h0 hgp
  omega

example : Integer.lcm .debug (-4) (-6) = .ok 12 := by decide

/-! ## C03, C04 `Rational::new` -/

/-- C03. `new` (and `new_i64`) returns the same value in lowest terms with positive denominator. -/
theorem C03_new (n d : Int) (hd : d ≠ 0) :
    Spec IsOverflow (Rational.new .debug n d) (fun z =>
      0 < z.denom ∧ Int.gcd z.numer z.denom = 1 ∧ (z.numer : ℚ) / z.denom = (n : ℚ) / d) :=
  (Rational.new_spec n d hd).imp fun _ h => ⟨h.1.denom_pos, h.1.coprime, h.2⟩

/-- C03. So does `new_i64`; it panics on a zero denominator. -/
theorem C03_new_i64 (n d : Int) :
    (d ≠ 0 → Spec IsOverflow (Rational.newI64 .debug n d) (fun z =>
      0 < z.denom ∧ Int.gcd z.numer z.denom = 1 ∧ (z.numer : ℚ) / z.denom = (n : ℚ) / d)) ∧
    ∀ b, Rational.newI64 b n 0 = .panic (.explicit "denominator cannot be zero") :=
  ⟨C03_new n d, fun _ => rfl⟩

/-- C03. A zero denominator panics, in both builds. -/
theorem C03_new_zero (b : Build) (n : Int) :
    Rational.new b n 0 = .panic (.explicit "denominator cannot be zero") := rfl

/-- C03. Away from `i64::MIN`, `new` returns in both builds. -/
theorem C03_new_total (b : Build) (n d : Int) (hn : I64.InRange n) (hdr : I64.InRange d)
    (hn' : n ≠ I64.MIN) (hd' : d ≠ I64.MIN) (hd : d ≠ 0) :
    ∃ z, Rational.new b n d = .ok z ∧ 0 < z.denom ∧ Int.gcd z.numer z.denom = 1 ∧
      (z.numer : ℚ) / z.denom = (n : ℚ) / d := by
  suffices H : ∃ z, ∀ b, Rational.new b n d = .ok z by
    obtain ⟨z, hz⟩ := H
    exact ⟨z, hz b, (C03_new n d hd).of_ok (hz _)⟩
  have hg : 0 < Int.gcd n d := Int.gcd_pos_of_ne_zero_right n hd
  refine ⟨⟨(d.sign * n).tdiv (Int.gcd n d), (d.natAbs : Int).tdiv (Int.gcd n d)⟩, fun b => ?_⟩
  unfold Rational.new
  rw [if_neg (by simpa [Integer.isZero] using hd), C01_gcd_total b n d hn hdr hn' hd']
  have hsn : I64.InRange (d.sign * n) := by
    unfold I64.InRange I64.MIN at *
    rcases lt_or_gt_of_ne hd with h | h
    · rw [Int.sign_eq_neg_one_of_neg h]; omega
    · rw [Int.sign_eq_one_of_pos h]; omega
  have hab : I64.InRange (d.natAbs : Int) := by
    unfold I64.InRange I64.MIN at *; omega
  have hg' : (Int.gcd n d : Int) ≠ 0 := by omega
  have hg1 : ¬ (Int.gcd n d : Int) = -1 := by omega
  simp only [bind_ok, Integer.mul, Integer.sgn, I64.norm_eq hsn, Integer.abs, I64.norm_eq hab,
    Integer.div, if_neg hg', hg1, and_false, if_false, pure_eq, Rational.newUnchecked]

example : Rational.newI64 .debug 6 (-8) = .ok ⟨-3, 4⟩ := by decide

theorem simplest_ext {x y : Rational} (hx : x.Simplest) (hy : y.Simplest)
    (h : x.val = y.val) : x = y := by
  have := Rat.div_int_inj hx.denom_pos hy.denom_pos hx.coprime hy.coprime h
  cases x; cases y; simp_all

/-- C04. Equality of constructed rationals is equality of the fractions. -/
theorem C04_new_eq (a b c d : Int) (hb : b ≠ 0) (hd : d ≠ 0) (x y : Rational)
    (hx : Rational.new .debug a b = .ok x) (hy : Rational.new .debug c d = .ok y) :
    x = y ↔ a * d = c * b := by
  obtain ⟨sx, vx⟩ := (Rational.new_spec a b hb).of_ok hx
  obtain ⟨sy, vy⟩ := (Rational.new_spec c d hd).of_ok hy
  have hbq : (b : ℚ) ≠ 0 := by exact_mod_cast hb
  have hdq : (d : ℚ) ≠ 0 := by exact_mod_cast hd
  have key : x.val = y.val ↔ a * d = c * b := by
    rw [vx, vy, div_eq_div_iff hbq hdq]; norm_cast
  rw [← key]
  exact ⟨fun h => h ▸ rfl, simplest_ext sx sy⟩

example : Rational.new .debug 2 4 = Rational.new .debug (-3) (-6) := by decide

/-! ## C05 exact arithmetic -/

/-- C05. In an overflow-checked build, arithmetic on rationals with positive denominators returns
the exact result (with positive denominator) or panics with overflow. -/
theorem C05_exact (x y : Rational) (hx : 0 < x.denom) (hy : 0 < y.denom) :
    Spec IsOverflow (Rational.add .debug x y) (fun z => 0 < z.denom ∧ z.val = x.val + y.val) ∧
    Spec IsOverflow (Rational.sub .debug x y) (fun z => 0 < z.denom ∧ z.val = x.val - y.val) ∧
    Spec IsOverflow (Rational.mul .debug x y) (fun z => 0 < z.denom ∧ z.val = x.val * y.val) ∧
    (y.val ≠ 0 →
      Spec IsOverflow (Rational.div .debug x y) (fun z => 0 < z.denom ∧ z.val = x.val / y.val)) ∧
    Spec IsOverflow (Rational.neg .debug x) (fun z => 0 < z.denom ∧ z.val = - x.val) := by
  refine ⟨(Rational.add_spec x y hx hy).imp fun z h => ⟨h.1.denom_pos, h.2⟩,
    (Rational.sub_spec x y hx hy).imp fun z h => ⟨h.1.denom_pos, h.2⟩,
    (Rational.mul_spec x y hx hy).imp fun z h => ⟨h.1.denom_pos, h.2⟩,
    fun h0 => (Rational.div_spec x y hx hy h0).imp fun z h => ⟨h.1.denom_pos, h.2⟩,
    (Rational.neg_spec x).imp fun z h => ⟨by rw [h.2]; exact hx, ?_⟩⟩
  unfold Rational.val; rw [h.1, h.2]; push_cast; rw [neg_div]

/-- C05. `sum` and `product` of an iterator are exact. -/
theorem C05_sum (l : List Rational) (h : ∀ x ∈ l, x.WF) :
    Spec IsOverflow (Rational.sum .debug (l.map .ok))
      (fun z => 0 < z.denom ∧ z.val = (l.map (·.val)).sum) ∧
    Spec IsOverflow (Rational.product .debug (l.map .ok))
      (fun z => 0 < z.denom ∧ z.val = (l.map (·.val)).prod) := by
  refine ⟨(Rational.sum_spec _ (fun _ h => h) _ _ ?_).imp fun z h => ⟨h.1.denom_pos, h.2⟩,
    Rational.product_spec _ (fun _ h => h) _ _ ?_⟩
  · rw [List.forall₂_map_left_iff, List.forall₂_map_right_iff, List.forall₂_same]
    exact fun x hx => ⟨h x hx, rfl⟩
  · rw [List.forall₂_map_left_iff, List.forall₂_map_right_iff, List.forall₂_same]
    exact fun x hx => ⟨(h x hx).denom_pos, rfl⟩

/-- C05. Division by zero never returns, in either build. -/
theorem C05_div_zero (b : Build) (x y : Rational) (h : y.numer = 0) :
    (∃ p, Rational.div b x y = .panic p) := by
  unfold Rational.div
  rw [h]
  have h0 : Integer.mul b x.denom 0 = .ok 0 := by
    simp [Integer.mul, I64.norm, I64.InRange]
  rw [h0]
  unfold Integer.mul I64.norm
  split
  · exact ⟨_, rfl⟩
  · cases b
    · exact ⟨_, rfl⟩
    · exact ⟨_, rfl⟩

example : Rational.add .debug ⟨1, 2⟩ ⟨1, 3⟩ = .ok ⟨5, 6⟩ := by decide
example : Rational.div .debug ⟨1, 2⟩ ⟨1, 3⟩ = .ok ⟨3, 2⟩ := by decide

/-! ## C06 simplest form -/

/-- C06 is false: the sum of two rationals in simplest form need not be in simplest form, and
`1/2 + 1/2 == Rational::ONE` is false. -/
theorem C06_refuted :
    Rational.new .debug 1 2 = .ok ⟨1, 2⟩ ∧
    Rational.add .debug ⟨1, 2⟩ ⟨1, 2⟩ = .ok ⟨4, 4⟩ ∧ (⟨4, 4⟩ : Rational) ≠ Rational.ONE := by
  decide

theorem gcd_add_mul_of_coprime {n1 d1 n2 d2 : Int} (h1 : Int.gcd n1 d1 = 1) (h2 : Int.gcd n2 d2 = 1)
    (h : Int.gcd d1 d2 = 1) : Int.gcd (n1 * d2 + n2 * d1) (d1 * d2) = 1 := by
  rw [← Int.isCoprime_iff_gcd_eq_one] at *
  refine IsCoprime.mul_right ?_ ?_
  · rw [add_comm]
    have : IsCoprime (n1 * d2) d1 := IsCoprime.mul_left h1 h.symm
    simpa [add_comm, mul_comm] using this.add_mul_left_left n2
  · have : IsCoprime (n2 * d1) d2 := IsCoprime.mul_left h2 h
    simpa [add_comm, mul_comm] using this.add_mul_left_left n1

/-- C06, the part that holds: `new`, `*`, `/`, unary `-` and `recip` return simplest forms;
`+` and `-` do when the denominators are coprime (for instance both 1).  Missing: `+`/`-` with
denominators sharing a factor, refuted above. -/
theorem C06_simplest_partial (x y : Rational) (hx : x.Simplest) (hy : y.Simplest) :
    Spec IsOverflow (Rational.mul .debug x y) Rational.Simplest ∧
    (y.val ≠ 0 → Spec IsOverflow (Rational.div .debug x y) Rational.Simplest) ∧
    Spec IsOverflow (Rational.neg .debug x) Rational.Simplest ∧
    (x.val ≠ 0 → Spec IsOverflow (Rational.recip .debug x) Rational.Simplest) ∧
    (Int.gcd x.denom y.denom = 1 →
      Spec IsOverflow (Rational.add .debug x y) Rational.Simplest ∧
      Spec IsOverflow (Rational.sub .debug x y) Rational.Simplest) := by
  have zs : Rational.ZERO.Simplest := ⟨by decide, by decide⟩
  refine ⟨(Rational.mul_spec x y hx.denom_pos hy.denom_pos).imp fun z h => h.1,
    fun h0 => (Rational.div_spec x y hx.denom_pos hy.denom_pos h0).imp fun z h => h.1,
    (Rational.neg_spec x).imp fun z h => ⟨by rw [h.2]; exact hx.denom_pos, ?_⟩,
    fun h0 => (Rational.recip_spec x hx.denom_pos h0).imp fun z h =>
      ⟨h.1, by rw [h.2.2.1]; exact hx.coprime⟩, fun hc => ⟨?_, ?_⟩⟩
  · rw [h.1, h.2, Int.neg_gcd]; exact hx.coprime
  · unfold Rational.add
    refine (Integer.mul_spec _ _).bind ?_
    rintro _ rfl
    refine (Integer.mul_spec _ _).bind ?_
    rintro _ rfl
    refine (Integer.add_spec _ _).bind ?_
    rintro _ rfl
    split
    · exact zs
    · refine (Integer.mul_spec _ _).bind ?_
      rintro _ rfl
      exact ⟨mul_pos hx.denom_pos hy.denom_pos, gcd_add_mul_of_coprime hx.coprime hy.coprime hc⟩
  · unfold Rational.sub
    refine (Integer.mul_spec _ _).bind ?_
    rintro _ rfl
    refine (Integer.mul_spec _ _).bind ?_
    rintro _ rfl
    refine (Integer.sub_spec _ _).bind ?_
    rintro _ rfl
    split
    · exact zs
    · refine (Integer.mul_spec _ _).bind ?_
      rintro _ rfl
      refine ⟨mul_pos hx.denom_pos hy.denom_pos, ?_⟩
      have h2 : Int.gcd (-y.numer) y.denom = 1 := by rw [Int.neg_gcd]; exact hy.coprime
      have := gcd_add_mul_of_coprime hx.coprime h2 hc
      simpa [Rational.newUnchecked, sub_eq_add_neg] using this

/-- C06. Nonnegative powers of simplest forms are in simplest form. -/
theorem C06_pow_partial (x : Rational) (hx : x.Simplest) (e : Int) (h0 : 0 ≤ e)
    (h1 : e < 4294967296) :
    Spec IsOverflow (Rational.pow .debug x e) Rational.Simplest := by
  refine (Rational.pow_spec x e h0 h1).imp ?_
  rintro z ⟨hn, hd⟩
  refine ⟨by rw [hd]; exact pow_pos hx.denom_pos _, ?_⟩
  rw [hn, hd, ← Int.isCoprime_iff_gcd_eq_one]
  exact (Int.isCoprime_iff_gcd_eq_one.mpr hx.coprime).pow

example : Rational.Simplest ⟨-3, 4⟩ := ⟨by decide, by decide⟩

/-! ## C07 zero has one representation -/

/-- The rationals a program can obtain through the public API (overflow-checked build). -/
inductive Reachable : Rational → Prop
  | zero : Reachable Rational.ZERO
  | one : Reachable Rational.ONE
  | newInt (n : Int) : Reachable (Rational.newInt n)
  | new (n d : Int) {z} : Rational.new .debug n d = .ok z → Reachable z
  | add {x y z} : Reachable x → Reachable y → Rational.add .debug x y = .ok z → Reachable z
  | sub {x y z} : Reachable x → Reachable y → Rational.sub .debug x y = .ok z → Reachable z
  | mul {x y z} : Reachable x → Reachable y → Rational.mul .debug x y = .ok z → Reachable z
  | div {x y z} : Reachable x → Reachable y → Rational.div .debug x y = .ok z → Reachable z
  | neg {x z} : Reachable x → Rational.neg .debug x = .ok z → Reachable z
  | recip {x z} : Reachable x → x ≠ Rational.ZERO → Rational.recip .debug x = .ok z → Reachable z
  | pow {x z} (e : Int) : Reachable x → 0 ≤ e → e < 4294967296 →
      Rational.pow .debug x e = .ok z → Reachable z

theorem Reachable.wf {x : Rational} (h : Reachable x) : x.WF := by
  induction h with
  | zero => exact Rational.wf_ZERO
  | one => exact Rational.wf_ONE
  | newInt n => exact ⟨Int.one_pos, fun _ => rfl⟩
  | new n d hz =>
    rcases eq_or_ne d 0 with rfl | hd
    · rw [C03_new_zero] at hz; cases hz
    · exact ((Rational.new_spec n d hd).of_ok hz).1.wf
  | add _ _ hz hx hy => exact ((Rational.add_spec _ _ hx.denom_pos hy.denom_pos).of_ok hz).1
  | sub _ _ hz hx hy => exact ((Rational.sub_spec _ _ hx.denom_pos hy.denom_pos).of_ok hz).1
  | mul _ _ hz hx hy => exact ((Rational.mul_spec _ _ hx.denom_pos hy.denom_pos).of_ok hz).1.wf
  | @div x y z _ _ hz hx hy =>
    by_cases h0 : y.val = 0
    · obtain ⟨p, hp⟩ := C05_div_zero .debug x y ((Rational.val_eq_zero_iff hy.denom_pos).mp h0)
      rw [hp] at hz; cases hz
    · exact ((Rational.div_spec _ _ hx.denom_pos hy.denom_pos h0).of_ok hz).1.wf
  | @neg x z _ hz hx =>
    obtain ⟨hn, hd⟩ := (Rational.neg_spec x).of_ok hz
    refine ⟨by rw [hd]; exact hx.denom_pos, fun h => ?_⟩
    rw [hd]; exact hx.zero_canon (by omega)
  | @recip x z _ h0 hz hx =>
    have := (Rational.recip_spec x hx.denom_pos (fun h => h0 ((Rational.wf_val_zero hx).mp h))).of_ok hz
    exact ⟨this.1, fun h => absurd h this.2.1⟩
  | @pow x z e _ h0 h1 hz hx =>
    obtain ⟨hn, hd⟩ := (Rational.pow_spec x e h0 h1).of_ok hz
    exact (Rational.pow_wf hx hn hd).1

/-- C07. Every reachable rational has a positive denominator, and it is zero exactly when it is
`== ZERO`, and exactly when `is_zero()`. -/
theorem C07_zero (x : Rational) (h : Reachable x) :
    0 < x.denom ∧ (x.val = 0 ↔ x = Rational.ZERO) ∧ (x.val = 0 ↔ x.isZero = true) := by
  refine ⟨h.wf.denom_pos, Rational.wf_val_zero h.wf, ?_⟩
  rw [Rational.val_eq_zero_iff h.wf.denom_pos]
  simp [Rational.isZero, Integer.isZero]

example : ∃ x, Reachable x ∧ x = ⟨4, 4⟩ :=
  ⟨_, .add (x := ⟨1, 2⟩) (y := ⟨1, 2⟩) (.new 1 2 (by decide)) (.new 1 2 (by decide)) (by decide), rfl⟩

/-! ## C08 reciprocal -/

/-- C08, first half: `recip`/`inv` of a nonzero rational is its inverse, with positive denominator. -/
theorem C08_recip_partial (x : Rational) (hx : 0 < x.denom) (h0 : x.val ≠ 0) :
    Spec IsOverflow (Rational.recip .debug x) (fun z => 0 < z.denom ∧ z.val * x.val = 1) :=
  (Rational.recip_spec x hx h0).imp fun z h => ⟨h.1, by rw [h.2.2.2, inv_mul_cancel₀ h0]⟩

/-- C08, second half is false: inverting zero returns the ill-formed fraction `0/0`. -/
theorem C08_refuted (b : Build) : Rational.recip b Rational.ZERO = .ok ⟨0, 0⟩ := by
  cases b <;> decide

example : Rational.recip .debug ⟨-3, 4⟩ = .ok ⟨-4, 3⟩ := by decide

/-! ## C09 powers -/

/-- C09, the part that holds: exponents `0 ≤ e < 2^32`. Missing: larger exponents and negative
exponents of nonpositive bases, refuted below. -/
theorem C09_pow_partial (x : Rational) (hx : x.WF) (e : Int) (h0 : 0 ≤ e) (h1 : e < 4294967296) :
    Spec IsOverflow (Rational.pow .debug x e) (fun z => 0 < z.denom ∧ z.val = x.val ^ e.toNat) :=
  (Rational.pow_spec x e h0 h1).imp fun _ h =>
    ⟨(Rational.pow_wf hx h.1 h.2).1.denom_pos, (Rational.pow_wf hx h.1 h.2).2⟩

/-- C09, negative exponents of positive bases. -/
theorem C09_pow_neg_partial (x : Rational) (hp : 0 < x.numer) (e : Int)
    (h0 : e < 0) (h1 : -4294967296 < e) :
    Spec IsOverflow (Rational.pow .debug x e)
      (fun z => 0 < z.denom ∧ z.val = (x.val ^ (-e).toNat)⁻¹) := by
  unfold Rational.pow
  rw [if_pos (by simpa [Integer.isNeg] using h0)]
  refine (Integer.neg_spec _).bind ?_
  rintro _ rfl
  refine (Integer.pow_spec _ _).bind ?_
  rintro _ rfl
  refine (Integer.neg_spec _).bind ?_
  rintro _ rfl
  refine (Integer.pow_spec _ _).bind ?_
  rintro _ rfl
  rw [Rational.asU32_of_lt (by omega) (by omega)]
  refine ⟨pow_pos hp _, ?_⟩
  simp only [Rational.val, Rational.newUnchecked]
  push_cast
  rw [div_pow, inv_div]

/-- C09 is false in general: a negative exponent of a negative base gives a negative denominator,
of zero gives a zero denominator, and an exponent of `2^32` is silently truncated to 0. -/
theorem C09_refuted :
    Rational.pow .debug ⟨-2, 1⟩ (-1) = .ok ⟨1, -2⟩ ∧
    Rational.pow .debug Rational.ZERO (-1) = .ok ⟨1, 0⟩ ∧
    Rational.pow .debug ⟨2, 1⟩ 4294967296 = .ok Rational.ONE := by decide

example : Rational.powi .debug ⟨-2, 3⟩ 3 = .ok ⟨-8, 27⟩ := by decide

/-! ## C10, C11 order -/

/-- C10. `cmp` is the order of the rational numbers (or overflows). -/
theorem C10_cmp (x y : Rational) (hx : 0 < x.denom) (hy : 0 < y.denom) :
    Spec IsOverflow (Rational.cmp .debug x y) (fun o => o = compare x.val y.val) ∧
    Spec IsOverflow (Rational.partialCmp .debug x y) (fun o => o = some (compare x.val y.val)) := by
  have := Rational.cmp_spec x y hx hy
  refine ⟨this, ?_⟩
  unfold Rational.partialCmp
  cases h : Rational.cmp .debug x y with
  | ok o => rw [h] at this; exact congrArg some this
  | panic p => rw [h] at this; exact this
  | diverge => rw [h] at this; exact this

example : Rational.cmp .debug ⟨-1, 2⟩ ⟨1, 3⟩ = .ok .lt := by decide

/-- C11 is false: the reachable value `1/2 + 1/2` compares `Equal` to `ONE` but is not `==` to it. -/
theorem C11_refuted : ∃ x y, Reachable x ∧ Reachable y ∧
    Rational.cmp .debug x y = .ok .eq ∧ x ≠ y :=
  ⟨⟨4, 4⟩, Rational.ONE, .add (x := ⟨1, 2⟩) (y := ⟨1, 2⟩) (.new 1 2 (by decide)) (.new 1 2 (by decide)) (by decide), .one,
    by decide, by decide⟩

/-- C11, the part that holds: on rationals in simplest form.  Missing: unreduced sums. -/
theorem C11_cmp_eq_partial (x y : Rational) (hx : x.Simplest) (hy : y.Simplest) :
    Spec IsOverflow (Rational.cmp .debug x y) (fun o => o = .eq ↔ x = y) := by
  refine (Rational.cmp_spec x y hx.denom_pos hy.denom_pos).imp ?_
  rintro o rfl
  rw [compare_eq_iff_eq]
  exact ⟨simplest_ext hx hy, fun h => h ▸ rfl⟩

/-! ## C13 build profiles agree -/

section
open Rational

theorem Integer.gcd_refines (a b : Int) :
    Refines (Integer.gcd .debug a b) (Integer.gcd .release a b) :=
  (Refines.refl _).bind fun _ => I64.norm_refines _

theorem Integer.lcm_refines (a b : Int) :
    Refines (Integer.lcm .debug a b) (Integer.lcm .release a b) :=
  (Integer.gcd_refines a b).bind fun _ => (Refines.refl _).bind fun _ => I64.norm_refines _

theorem Rational.new_refines (n d : Int) : Refines (new .debug n d) (new .release n d) := by
  unfold new
  split
  · exact Refines.refl _
  · exact (Integer.gcd_refines _ _).bind fun _ => (I64.norm_refines _).bind fun _ =>
      (Refines.refl _).bind fun _ => (I64.norm_refines _).bind fun _ => Refines.refl _

theorem Rational.add_refines (x y : Rational) : Refines (add .debug x y) (add .release x y) := by
  refine (I64.norm_refines _).bind fun _ => (I64.norm_refines _).bind fun _ =>
    (I64.norm_refines _).bind fun _ => ?_
  split
  · exact Refines.refl _
  · exact (I64.norm_refines _).bind fun _ => Refines.refl _

theorem Rational.sub_refines (x y : Rational) : Refines (sub .debug x y) (sub .release x y) := by
  refine (I64.norm_refines _).bind fun _ => (I64.norm_refines _).bind fun _ =>
    (I64.norm_refines _).bind fun _ => ?_
  split
  · exact Refines.refl _
  · exact (I64.norm_refines _).bind fun _ => Refines.refl _

theorem Rational.neg_refines (x : Rational) : Refines (neg .debug x) (neg .release x) :=
  (I64.norm_refines _).bind fun _ => Refines.refl _

theorem Rational.mul_refines (x y : Rational) : Refines (mul .debug x y) (mul .release x y) :=
  (I64.norm_refines _).bind fun _ => (I64.norm_refines _).bind fun _ => new_refines _ _

theorem Rational.div_refines (x y : Rational) : Refines (div .debug x y) (div .release x y) :=
  (I64.norm_refines _).bind fun _ => (I64.norm_refines _).bind fun _ => new_refines _ _

theorem Rational.recip_refines (x : Rational) : Refines (recip .debug x) (recip .release x) :=
  (I64.norm_refines _).bind fun _ => (I64.norm_refines _).bind fun _ => Refines.refl _

theorem Rational.pow_refines (x : Rational) (e : Int) :
    Refines (pow .debug x e) (pow .release x e) := by
  unfold pow
  split
  · exact (I64.norm_refines _).bind fun _ => (I64.norm_refines _).bind fun _ =>
      (I64.norm_refines _).bind fun _ => (I64.norm_refines _).bind fun _ => Refines.refl _
  · exact (I64.norm_refines _).bind fun _ => (I64.norm_refines _).bind fun _ => Refines.refl _

theorem reduceM_refines {f g : Rational → Rational → Res Rational}
    (h : ∀ x y, Refines (f x y) (g x y)) (d : Rational) {l l' : List (Res Rational)}
    (hl : List.Forall₂ Refines l l') : Refines (reduceM f d l) (reduceM g d l') := by
  cases hl with
  | nil => exact Refines.refl _
  | @cons r r' l l' hr hl =>
    refine hr.bind fun a => ?_
    induction hl generalizing a with
    | nil => exact Refines.refl _
    | @cons r r' l l' hr hl ih =>
      rw [List.foldlM_cons, List.foldlM_cons]
      exact (hr.bind fun y => h _ _).bind fun c => ih c

theorem Rational.cmp_refines (x y : Rational) : Refines (cmp .debug x y) (cmp .release x y) :=
  (I64.norm_refines _).bind fun _ => (I64.norm_refines _).bind fun _ => Refines.refl _

theorem Rational.stabilityCmp_refines (x y : Rational) :
    Refines (stabilityCmp .debug x y) (stabilityCmp .release x y) := by
  unfold stabilityCmp
  split
  · exact Refines.refl _
  · split
    · exact Refines.refl _
    · exact (I64.norm_refines _).bind fun _ => (I64.norm_refines _).bind fun _ =>
        (I64.norm_refines _).bind fun _ => (I64.norm_refines _).bind fun _ =>
        (I64.norm_refines _).bind fun _ => (I64.norm_refines _).bind fun _ => Refines.refl _

/-- C13. Whatever an `Integer` operation returns with overflow checks, it returns without. -/
theorem C13_integer (x y : Int) :
    Refines (Integer.add .debug x y) (Integer.add .release x y) ∧
    Refines (Integer.sub .debug x y) (Integer.sub .release x y) ∧
    Refines (Integer.mul .debug x y) (Integer.mul .release x y) ∧
    Refines (Integer.neg .debug x) (Integer.neg .release x) ∧
    Refines (Integer.abs .debug x) (Integer.abs .release x) ∧
    Refines (Integer.pow .debug x y) (Integer.pow .release x y) ∧
    Refines (Integer.gcd .debug x y) (Integer.gcd .release x y) ∧
    Refines (Integer.lcm .debug x y) (Integer.lcm .release x y) :=
  ⟨I64.norm_refines _, I64.norm_refines _, I64.norm_refines _, I64.norm_refines _,
    I64.norm_refines _, I64.norm_refines _, Integer.gcd_refines _ _, Integer.lcm_refines _ _⟩

/-- C13. Whatever a `Rational` operation returns with overflow checks, it returns without. -/
theorem C13_rational (x y : Rational) (n d : Int) (l : List (Res Rational)) :
    Refines (new .debug n d) (new .release n d) ∧
    Refines (add .debug x y) (add .release x y) ∧
    Refines (sub .debug x y) (sub .release x y) ∧
    Refines (mul .debug x y) (mul .release x y) ∧
    Refines (div .debug x y) (div .release x y) ∧
    Refines (neg .debug x) (neg .release x) ∧
    Refines (recip .debug x) (recip .release x) ∧
    Refines (pow .debug x n) (pow .release x n) ∧
    Refines (sum .debug l) (sum .release l) ∧
    Refines (product .debug l) (product .release l) ∧
    Refines (cmp .debug x y) (cmp .release x y) ∧
    Refines (stabilityCmp .debug x y) (stabilityCmp .release x y) :=
  have hl : List.Forall₂ Refines l l := List.forall₂_same.mpr fun _ _ => Refines.refl _
  ⟨new_refines _ _, add_refines _ _, sub_refines _ _, mul_refines _ _, div_refines _ _,
    neg_refines _, recip_refines _, pow_refines _ _, reduceM_refines add_refines _ hl,
    reduceM_refines mul_refines _ hl, cmp_refines _ _, stabilityCmp_refines _ _⟩

/-- The converse fails (so C13 is not vacuous): the builds differ when debug overflows. -/
example : Integer.add .debug 9223372036854775807 1 = .panic .overflowI64 ∧
    Integer.add .release 9223372036854775807 1 = .ok I64.MIN := by decide

end
end Verif
