import Verif.Props.EvalError
import Verif.Props.Signs
import Verif.Proofs.F64Int

/-!
# Powers of floats by repeated squaring (C232)

`powi` of `f32` and `f64` is a parameter of the model, since Rust does not specify its precision.  This file takes for it the
function that compiled programs call in LLVM's runtime library (`__powisf2`, `__powidf2`), and derives the accuracy that C228
asks for.
-/

namespace Verif
open Res
namespace Flt
open Fmt
variable [Fmt]

/-- The loop of `__powidf2` in LLVM's compiler-rt:
`while (1) { if (b & 1) r *= a; b /= 2; if (b == 0) break; a *= a; }`.  An `int` leaves at most 32 rounds. -/
def powiLoop : ℕ → Flt → Flt → ℕ → Flt
  | 0, _, r, _ => r
  | k + 1, a, r, n =>
    let r' := if n % 2 = 1 then mul r a else r
    if n / 2 = 0 then r' else powiLoop k (mul a a) r' (n / 2)

/-- `__powidf2` and `__powisf2`: the power by repeated squaring, inverted for a negative exponent. -/
def powiSquaring (x : Flt) (e : Int) : Flt :=
  let r := powiLoop 32 x one e.natAbs
  if e < 0 then div one r else r

/-! ### Integers -/

/-- Powers of integers are exact up to `2^prec`. -/
theorem powiLoop_int {i : ℤ} (k : ℕ) : ∀ {a r : Flt} {p q n : ℕ}, n < 2 ^ k → IsInt a (i ^ p) → IsInt r (i ^ q) →
    |i| ^ (q + p * n) ≤ 2 ^ (sig + 1) → IsInt (powiLoop k a r n) (i ^ (q + p * n)) := by
  induction k with
  | zero =>
    intro a r p q n hn _ hr _
    obtain rfl : n = 0 := by omega
    simpa [powiLoop] using hr
  | succ k ih =>
    intro a r p q n hn ha hr hb
    have le : ∀ m, m ≤ q + p * n → |i ^ m| ≤ 2 ^ (sig + 1) := by
      intro m hm
      rw [abs_pow]
      rcases eq_or_ne i 0 with rfl | hi
      · rw [abs_zero]
        rcases Nat.eq_zero_or_pos m with rfl | hm
        · simpa using one_le_pow₀ (n := sig + 1) (by norm_num : (1 : ℤ) ≤ 2)
        · rw [zero_pow (by omega)]; positivity
      · exact (pow_le_pow_right₀ (Int.one_le_abs hi) hm).trans hb
    have hdm := Nat.div_add_mod n 2
    have e : q + p * n = (q + p * (n % 2)) + (p + p) * (n / 2) := by
      conv_lhs => rw [← hdm]
      ring
    have hr' : IsInt (if n % 2 = 1 then mul r a else r) (i ^ (q + p * (n % 2))) := by
      by_cases h : n % 2 = 1
      · rw [if_pos h, h, mul_one, pow_add]
        refine hr.mul ha ?_
        rw [← pow_add]
        refine le _ ?_
        have : p * 1 ≤ p * n := Nat.mul_le_mul_left p (by omega)
        omega
      · rw [if_neg h, show n % 2 = 0 by omega, mul_zero, add_zero]
        exact hr
    rw [powiLoop]
    by_cases h : n / 2 = 0
    · rw [if_pos h, e, h, mul_zero, add_zero]
      exact hr'
    · rw [if_neg h, e]
      refine ih (by rw [pow_succ] at hn; omega) ?_ hr' (by rw [← e]; exact hb)
      rw [pow_add]
      refine ha.mul ha ?_
      rw [← pow_add]
      refine le _ ?_
      have : p * 2 ≤ p * n := Nat.mul_le_mul_left p (by omega)
      omega

/-- C232. A power of an integer by repeated squaring is exact up to `2^prec`. -/
theorem C232_powi_exact {x : Flt} {i : ℤ} (h : IsInt x i) {n : ℕ} (hn : n < 2 ^ 32) (hb : |i| ^ n ≤ 2 ^ (sig + 1)) :
    IsInt (powiSquaring x n) (i ^ n) := by
  unfold powiSquaring
  rw [if_neg (by omega), Int.natAbs_natCast]
  have := powiLoop_int (i := i) 32 (p := 1) (q := 0) hn (by simpa using h) (by simpa using isInt_one)
    (by simpa using hb)
  simpa using this

/-! ### Relative errors -/

/-- `x` is within the relative error `(1 + 2^-prec)^k - 1` of `A`. -/
def Close (x : Flt) (A : ℚ) (k : ℕ) : Prop :=
  x.value ≠ none ∧ |x.val - A| ≤ ((1 + roundoff) ^ k - 1) * |A|

/-- The smallest normal number. -/
def minNormal : ℚ := tiny / roundoff

theorem one_le_growth (k : ℕ) : 1 ≤ (1 + roundoff) ^ k := one_le_pow₀ (by linarith [roundoff_pos])

theorem Close.abs_le {x : Flt} {A : ℚ} {k : ℕ} (h : Close x A k) : |x.val| ≤ (1 + roundoff) ^ k * |A| := by
  have := abs_sub_abs_le_abs_sub x.val A
  linarith [h.2]

theorem mul_val_zero {x y : Flt} (hx : x.value ≠ none) (hy : y.value ≠ none) (h : x.val * y.val = 0) : (mul x y).val = 0 := by
  cases x with
  | nan => exact absurd rfl hx
  | inf _ => exact absurd rfl hx
  | fin s n =>
    cases y with
    | nan => exact absurd rfl hy
    | inf _ => exact absurd rfl hy
    | fin t m =>
      have hu := unit_posQ
      have e : n * m = 0 := by
        rcases mul_eq_zero.mp h with h | h <;> rw [val_eq rfl, div_eq_zero_iff] at h <;>
          rcases h with h | h <;> first | exact absurd h hu.ne' | skip
        · have : n = 0 := by
            have h' : units s n = 0 := by exact_mod_cast h
            unfold units at h'; cases s <;> simpa using h'
          rw [this, zero_mul]
        · have : m = 0 := by
            have h' : units t m = 0 := by exact_mod_cast h
            unfold units at h'; cases t <;> simpa using h'
          rw [this, mul_zero]
      rw [mul_fin, e, round_zero]
      exact val_eq (by simp [value, units])

/-- A product of nearby numbers, before rounding. -/
theorem Close.prod {x y : Flt} {A B : ℚ} {k l : ℕ} (hx : Close x A k) (hy : Close y B l) :
    |x.val * y.val - A * B| ≤ ((1 + roundoff) ^ (k + l) - 1) * |A * B| := by
  have hA := abs_nonneg A
  have hk := one_le_growth k
  have e : x.val * y.val - A * B = (x.val - A) * y.val + A * (y.val - B) := by ring
  rw [e, abs_mul A B, pow_add]
  refine (abs_add_le _ _).trans ?_
  rw [abs_mul, abs_mul]
  have a1 := mul_le_mul hx.2 hy.abs_le (abs_nonneg _) (mul_nonneg (by linarith) hA)
  have a2 := mul_le_mul_of_nonneg_left hy.2 hA
  refine (add_le_add a1 a2).trans (le_of_eq ?_)
  ring

/-- A product of nearby numbers without underflow. -/
theorem Close.mul {x y : Flt} {A B : ℚ} {k l : ℕ} (hx : Close x A k) (hy : Close y B l) (hf : (mul x y).value ≠ none)
    (hn : A = 0 ∨ B = 0 ∨ minNormal ≤ |x.val * y.val|) : Close (mul x y) (A * B) (k + l + 2) := by
  refine ⟨hf, ?_⟩
  have hu := roundoff_pos
  have hA := abs_nonneg A
  have hB := abs_nonneg B
  have hk := one_le_growth k
  have hl := one_le_growth l
  have he : |(Flt.mul x y).val - x.val * y.val| ≤ 2 * roundoff * |x.val * y.val| := by
    have key := mul_error (value_val hx.1) (value_val hy.1) (value_val hf)
    have zero : x.val * y.val = 0 → |(Flt.mul x y).val - x.val * y.val| ≤ 2 * roundoff * |x.val * y.val| := by
      intro h0
      rw [h0, mul_val_zero hx.1 hy.1 h0]
      simp
    rcases hn with rfl | rfl | hn
    · refine zero ?_
      have := hx.2
      rw [abs_zero, mul_zero, sub_zero] at this
      rw [abs_nonpos_iff.mp this, zero_mul]
    · refine zero ?_
      have := hy.2
      rw [abs_zero, mul_zero, sub_zero] at this
      rw [abs_nonpos_iff.mp this, mul_zero]
    · have : tiny ≤ roundoff * |x.val * y.val| := by
        rw [minNormal, div_le_iff₀ hu] at hn
        linarith
      linarith
  have h1 := hx.prod hy
  have h2 : |x.val * y.val| ≤ (1 + roundoff) ^ (k + l) * |A * B| := by
    have := abs_sub_abs_le_abs_sub (x.val * y.val) (A * B)
    linarith
  have h3 : |(Flt.mul x y).val - A * B| ≤ |(Flt.mul x y).val - x.val * y.val| + |x.val * y.val - A * B| :=
    abs_sub_le _ _ _
  have h4 : 2 * roundoff * |x.val * y.val| ≤ 2 * roundoff * ((1 + roundoff) ^ (k + l) * |A * B|) :=
    mul_le_mul_of_nonneg_left h2 (by linarith)
  have h5 : (1 + roundoff) ^ (k + l + 2) = (1 + roundoff) ^ (k + l) * (1 + 2 * roundoff + roundoff ^ 2) := by
    rw [pow_add]; ring
  have h6 : 0 ≤ (1 + roundoff) ^ (k + l) * roundoff ^ 2 * |A * B| := by positivity
  rw [h5]
  nlinarith

omit [Fmt] in
theorem pow_half {u : ℚ} {N : ℕ} (hu : 0 ≤ u) (h1 : u ≤ 1) (h : N * u ≤ 1 / 3) : (1 + u) ^ N ≤ 3 / 2 := by
  have h2 : 1 + (N : ℚ) * (-u) ≤ (1 + -u) ^ N := one_add_mul_le_pow (by linarith) N
  have h3 : (1 + u) ^ N * (1 + -u) ^ N ≤ 1 := by
    rw [← mul_pow]
    exact pow_le_one₀ (by nlinarith) (by nlinarith)
  have h4 : (2 / 3 : ℚ) ≤ (1 + -u) ^ N := by linarith
  have h5 : 0 ≤ (1 + u) ^ N := by positivity
  nlinarith

/-- A few hundred roundings change a number by at most half. -/
theorem growth_half {k : ℕ} (hk : k ≤ 510) : (1 + roundoff) ^ k ≤ 3 / 2 := by
  have hu := roundoff_pos
  have hs : roundoff ≤ 1 / 2 ^ 24 := by
    unfold roundoff
    exact one_div_le_one_div_of_le (by norm_num) (pow_le_pow_right₀ (by norm_num) (by
      rcases sig_cases with h | h <;> omega))
  refine pow_half hu.le (by norm_num at hs; linarith) ?_
  have : (k : ℚ) ≤ 510 := by exact_mod_cast hk
  norm_num at hs
  nlinarith

theorem minNormal_pos : 0 < minNormal := div_pos tiny_pos roundoff_pos

theorem minNormal_le : 2 * minNormal ≤ 1 := by
  unfold minNormal roundoff tiny
  rw [div_div_eq_mul_div, div_one, one_div, ← div_eq_inv_mul, ← mul_div_assoc, div_le_one (by positivity),
    ← pow_succ']
  exact pow_le_pow_right₀ (by norm_num) (by cases ‹Fmt› <;> decide)

/-- Powers of `x` up to the `N`-th do not underflow. -/
def PowersNormal (x : ℚ) (N : ℕ) : Prop := x = 0 ∨ ∀ m ≤ N, 2 * minNormal ≤ |x| ^ m

theorem Close.normal {x y : Flt} {v : ℚ} {p q k l N : ℕ} (h : PowersNormal v N) (hx : Close x (v ^ p) k) (hy : Close y (v ^ q) l)
    (hpq : p + q ≤ N) (hkl : k + l ≤ 510) : v ^ p = 0 ∨ v ^ q = 0 ∨ minNormal ≤ |x.val * y.val| := by
  by_cases hp : v ^ p = 0
  · exact .inl hp
  by_cases hq : v ^ q = 0
  · exact .inr (.inl hq)
  refine .inr (.inr ?_)
  have hm : 2 * minNormal ≤ |v| ^ (p + q) := by
    rcases h with rfl | h
    · rcases Nat.eq_zero_or_pos p with rfl | hp'
      · rcases Nat.eq_zero_or_pos q with rfl | hq'
        · rw [add_zero, pow_zero]; exact minNormal_le
        · exact absurd (zero_pow (by omega)) hq
      · exact absurd (zero_pow (by omega)) hp
    · exact h _ hpq
  have h1 := hx.prod hy
  have h2 := abs_sub_abs_le_abs_sub (v ^ p * v ^ q) (x.val * y.val)
  rw [abs_sub_comm] at h2
  have h3 := growth_half hkl
  have h4 := abs_nonneg (v ^ p * v ^ q)
  rw [← abs_pow, pow_add] at hm
  nlinarith

/-- Invariant of the loop: `r` and `a` are near powers of `v`. -/
theorem powiLoop_close {v : ℚ} {N : ℕ} (hN : N ≤ 255) (hv : PowersNormal v N) (k : ℕ) : ∀ {a r : Flt} {p q n : ℕ}, 1 ≤ p →
    n < 2 ^ k → q + p * n = N → (a.value ≠ none → Close a (v ^ p) (2 * p - 2)) →
    (r.value ≠ none → Close r (v ^ q) (2 * q)) →
    (powiLoop k a r n).value ≠ none → Close (powiLoop k a r n) (v ^ N) (2 * N) := by
  induction k with
  | zero =>
    intro a r p q n _ hn hq _ hr hf
    obtain rfl : n = 0 := by omega
    obtain rfl : q = N := by simpa using hq
    exact hr hf
  | succ k ih =>
    intro a r p q n hp hn hq ha hr
    have hdm := Nat.div_add_mod n 2
    have e : q + p * n = (q + p * (n % 2)) + (p + p) * (n / 2) := by
      conv_lhs => rw [← hdm]
      ring
    have fin : ∀ {x y : Flt}, (Flt.mul x y).value ≠ none → x.value ≠ none ∧ y.value ≠ none := by
      intro x y h
      obtain ⟨⟨a, ha⟩, b, hb⟩ := mul_finite (value_val h)
      exact ⟨by rw [ha]; simp, by rw [hb]; simp⟩
    have hr' : (if n % 2 = 1 then mul r a else r).value ≠ none →
        Close (if n % 2 = 1 then mul r a else r) (v ^ (q + p * (n % 2))) (2 * (q + p * (n % 2))) := by
      by_cases h : n % 2 = 1
      · rw [if_pos h, h, mul_one, pow_add]
        intro hf
        have hle : p * 1 ≤ p * n := Nat.mul_le_mul_left p (by omega)
        have c1 := hr (fin hf).1
        have c2 := ha (fin hf).2
        have := c1.mul c2 hf (c1.normal hv c2 (by omega) (by omega))
        rwa [show 2 * q + (2 * p - 2) + 2 = 2 * (q + p) by omega] at this
      · rw [if_neg h, show n % 2 = 0 by omega, mul_zero, add_zero]
        exact hr
    rw [powiLoop]
    by_cases h : n / 2 = 0
    · rw [if_pos h]
      rw [h, mul_zero, add_zero] at e
      rw [← e, hq] at hr'
      exact hr'
    · rw [if_neg h]
      refine ih (p := p + p) (q := q + p * (n % 2)) (by omega) (by rw [pow_succ] at hn; omega) (by rw [← e]; exact hq) ?_ hr'
      intro hf
      have hle : p * 2 ≤ p * n := Nat.mul_le_mul_left p (by omega)
      have c := ha (fin hf).1
      have := c.mul c hf (c.normal hv c (by omega) (by omega))
      rwa [← pow_add, show 2 * p - 2 + (2 * p - 2) + 2 = 2 * (p + p) - 2 by omega] at this

/-- The powers do not underflow if the number is zero, at least `1`, or its last power is at least twice the smallest normal
number. -/
theorem powersNormal {v : ℚ} {N : ℕ} (h : v = 0 ∨ 1 ≤ |v| ∨ 2 * minNormal ≤ |v| ^ N) : PowersNormal v N := by
  rcases h with h | h | h
  · exact .inl h
  · exact .inr fun m _ => minNormal_le.trans (one_le_pow₀ h)
  · by_cases h1 : 1 ≤ |v|
    · exact .inr fun m _ => minNormal_le.trans (one_le_pow₀ h1)
    · exact .inr fun m hm => h.trans (pow_le_pow_of_le_one (abs_nonneg _) (by linarith) hm)

/-- C232. A finite power by repeated squaring is within the relative error `(1 + 2^-prec)^(2 n) - 1` of the exact power, for the
exponents of a multidegree, unless it underflows. -/
theorem C232_powi {x : Flt} {n : ℕ} (hn : n ≤ 255)
    (h : x.val = 0 ∨ 1 ≤ |x.val| ∨ 2 * minNormal ≤ |x.val| ^ n) (hf : (powiSquaring x n).value ≠ none) :
    |(powiSquaring x n).val - x.val ^ n| ≤ ((1 + 1 / 2 ^ prec) ^ (2 * n) - 1) * |x.val ^ n| := by
  unfold powiSquaring at *
  rw [if_neg (by omega), Int.natAbs_natCast] at *
  refine (powiLoop_close (k := 32) (p := 1) (q := 0) hn (powersNormal h) le_rfl (by omega) (by omega) (fun hx => ⟨hx, ?_⟩)
    (fun _ => ⟨by rw [value_one]; simp, ?_⟩) hf).2
  · simp
  · simp [val_one]

variable (b : Build)

/-- C232. The accuracy of `eval` with this `powi`: a finite value of a polynomial with `k` terms in `L` variables, with exponents up
to `D`, differs from the exact value by at most
`((1 + 2^-prec)^(k + (2 D + 1) L) - 1) Σ |terms| + L (1 + 2^-prec)^(k + (2 D + 1) L) 2^-(unitExp + 1) Σ Π max(1, |x_i^d_i|)`,
unless a power underflows. -/
theorem C232_eval (p : Poly Flt) (x : List Flt) (L D : ℕ) (hL : ∀ t ∈ p, t.mdeg.length ≤ L)
    (hx : ∀ t ∈ p, t.mdeg.length ≤ x.length) (hD : D ≤ 255) (hd : ∀ t ∈ p, ∀ d ∈ t.mdeg, d ≤ D)
    (hn : ∀ t ∈ p, ∀ y ∈ t.mdeg.zip x, y.2.val = 0 ∨ 1 ≤ |y.2.val| ∨ 2 * minNormal ≤ |y.2.val| ^ y.1) :
    letI := field b powiSquaring
    ∃ v, p.eval x = .ok v ∧ ∀ d, v.value = some d →
      |d - (p.map fun t => t.coef.val * ((t.mdeg.zip x).map fun y => y.2.val ^ y.1).prod).sum| ≤
        ((1 + 1 / 2 ^ prec) ^ (p.length + (2 * D + 1) * L) - 1) *
          (p.map fun t => |t.coef.val * ((t.mdeg.zip x).map fun y => y.2.val ^ y.1).prod|).sum +
        L * (1 + 1 / 2 ^ prec) ^ (p.length + (2 * D + 1) * L) * tiny *
          (p.map fun t => ((t.mdeg.zip x).map fun y => max 1 |y.2.val ^ y.1|).prod).sum := by
  have hone : (1 : ℚ) ≤ (1 + 1 / 2 ^ prec) := by
    have : (0 : ℚ) ≤ 1 / 2 ^ prec := by positivity
    linarith
  have h1 := one_le_pow₀ hone (n := 2 * D)
  have key := C228_accuracy b powiSquaring p x L hL hx ((1 + 1 / 2 ^ prec) ^ (2 * D) - 1)
    (by linarith) (fun t ht y hy hf => ?_)
  · have e : (1 + 1 / 2 ^ prec : ℚ) ^ (p.length + L) * (1 + ((1 + 1 / 2 ^ prec) ^ (2 * D) - 1)) ^ L =
        (1 + 1 / 2 ^ prec) ^ (p.length + (2 * D + 1) * L) := by
      rw [add_sub_cancel, ← pow_mul, ← pow_add, add_mul, one_mul, add_assoc, add_comm L]
    rw [e] at key
    exact key
  · have hy1 : y.1 ≤ D := hd t ht _ (List.of_mem_zip hy).1
    refine (C232_powi (hy1.trans hD) (hn t ht y hy) hf).trans (mul_le_mul_of_nonneg_right ?_ (abs_nonneg _))
    have := pow_le_pow_right₀ hone (show 2 * y.1 ≤ 2 * D by omega)
    linarith

theorem mul_ints {ι : Type} (l : List ι) (f : ι → Flt) (j : ι → ℤ) (h : ∀ a ∈ l, IsInt (f a) (j a)) {c : Flt} {i K : ℤ} (hc : IsInt c i) (hK : |i| ≤ K)
    (hb : K * (l.map fun a => max 1 |j a|).prod ≤ 2 ^ (sig + 1)) : IsInt ((l.map f).foldl mul c) (i * (l.map j).prod) := by
  induction l generalizing c i K with
  | nil => simpa using hc
  | cons a l ih =>
    rw [List.map_cons, List.prod_cons, ← mul_assoc] at hb
    rw [List.map_cons (f := j), List.prod_cons, ← mul_assoc]
    have h1 : (1 : ℤ) ≤ (l.map fun a => max 1 |j a|).prod := by
      clear hb ih h
      induction l with
      | nil => simp
      | cons a l ih =>
        rw [List.map_cons, List.prod_cons]
        exact one_le_mul_of_one_le_of_one_le (le_max_left _ _) ih
    have h2 : |i * j a| ≤ K * max 1 |j a| := by
      rw [abs_mul]
      exact mul_le_mul hK (le_max_right _ _) (abs_nonneg _) ((abs_nonneg _).trans hK)
    refine ih (fun a ha => h a (List.mem_cons_of_mem _ ha)) (hc.mul (h a List.mem_cons_self) ?_) h2 hb
    have h3 := (abs_nonneg _).trans h2
    nlinarith

theorem add_ints {ι : Type} (l : List ι) (f : ι → Flt) (j : ι → ℤ) (h : ∀ a ∈ l, IsInt (f a) (j a)) {c : Flt} {i K : ℤ} (hc : IsInt c i) (hK : |i| ≤ K)
    (hb : K + (l.map fun a => |j a|).sum ≤ 2 ^ (sig + 1)) : IsInt ((l.map f).foldl add c) (i + (l.map j).sum) := by
  induction l generalizing c i K with
  | nil => simpa using hc
  | cons a l ih =>
    rw [List.map_cons, List.sum_cons, ← add_assoc] at hb
    rw [List.map_cons (f := j), List.sum_cons, ← add_assoc]
    have h1 : (0 : ℤ) ≤ (l.map fun a => |j a|).sum := List.sum_nonneg fun y hy => by
      obtain ⟨a, -, rfl⟩ := List.mem_map.mp hy
      exact abs_nonneg _
    have h2 : |i + j a| ≤ K + |j a| := (abs_add_le _ _).trans (by linarith)
    exact ih (fun a ha => h a (List.mem_cons_of_mem _ ha)) (hc.add (h a List.mem_cons_self) (by linarith)) h2 hb

/-- C232. With this `powi`, evaluating a polynomial with nonzero integer coefficients at an integer point is exact if the sum of
`|c| Π max(1, |x_i|^d_i)` over the terms is at most `2^prec`. -/
theorem C232_exact (p : Poly Flt) (x : List Flt) (c : Term Flt → ℤ) (X : Flt → ℤ)
    (hc : ∀ t ∈ p, IsInt t.coef (c t) ∧ c t ≠ 0) (hX : ∀ a ∈ x, IsInt a (X a))
    (hx : ∀ t ∈ p, t.mdeg.length ≤ x.length) (hd : ∀ t ∈ p, ∀ d ∈ t.mdeg, d ≤ 255)
    (hb : (p.map fun t => |c t| * ((t.mdeg.zip x).map fun y => max 1 (|X y.2| ^ y.1)).prod).sum ≤ 2 ^ prec) :
    letI := field b powiSquaring
    ∃ v, p.eval x = .ok v ∧
      IsInt v (p.map fun t => c t * ((t.mdeg.zip x).map fun y => X y.2 ^ y.1).prod).sum := by
  let _ := field b powiSquaring
  refine ⟨_, eval_eq b powiSquaring p x hx, ?_⟩
  have hprod : ∀ l : List (ℕ × Flt), (1 : ℤ) ≤ (l.map fun y => max 1 (|X y.2| ^ y.1)).prod := fun l => by
    induction l with
    | nil => simp
    | cons a l ih =>
      rw [List.map_cons, List.prod_cons]
      exact one_le_mul_of_one_le_of_one_le (le_max_left _ _) ih
  have hmem : ∀ (l : List (ℕ × Flt)), ∀ y ∈ l, |X y.2| ^ y.1 ≤ (l.map fun y => max 1 (|X y.2| ^ y.1)).prod := fun l => by
    induction l with
    | nil => simp
    | cons a l ih =>
      intro y hy
      rw [List.map_cons, List.prod_cons]
      have h1 := hprod l
      have h2 : (1 : ℤ) ≤ max 1 (|X a.2| ^ a.1) := le_max_left _ _
      rcases List.mem_cons.mp hy with rfl | hy
      · have h3 : |X y.2| ^ y.1 ≤ max 1 (|X y.2| ^ y.1) := le_max_right _ _
        nlinarith
      · have h3 := ih y hy
        nlinarith
  let W : Term Flt → ℤ := fun t => |c t| * ((t.mdeg.zip x).map fun y => max 1 (|X y.2| ^ y.1)).prod
  have hW0 : ∀ t, 0 ≤ W t := fun t => mul_nonneg (abs_nonneg _) (zero_le_one.trans (hprod _))
  have hW : ∀ t ∈ p, W t ≤ 2 ^ prec := fun t ht =>
    (List.single_le_sum (fun y hy => by
      obtain ⟨t, -, rfl⟩ := List.mem_map.mp hy
      exact hW0 t) _ (List.mem_map_of_mem ht)).trans hb
  have habs : ∀ l : List (ℕ × Flt), |(l.map fun y => X y.2 ^ y.1).prod| ≤ (l.map fun y => max 1 (|X y.2| ^ y.1)).prod := fun l => by
    induction l with
    | nil => simp
    | cons a l ih =>
      rw [List.map_cons, List.prod_cons, List.map_cons, List.prod_cons, abs_mul, abs_pow]
      exact mul_le_mul (le_max_right _ _) ih (abs_nonneg _) (zero_le_one.trans (le_max_left _ _))
  have hT : ∀ t ∈ p, IsInt ((factors powiSquaring t x).foldl mul t.coef)
      (c t * ((t.mdeg.zip x).map fun y => X y.2 ^ y.1).prod) := by
    intro t ht
    have hc1 : 1 ≤ |c t| := Int.one_le_abs (hc t ht).2
    refine mul_ints (t.mdeg.zip x) (fun y => powiSquaring y.2 y.1) (fun y => X y.2 ^ y.1) (fun y hy => ?_) (hc t ht).1 le_rfl ?_
    · refine C232_powi_exact (hX _ (List.of_mem_zip hy).2) ?_ ?_
      · have := hd t ht _ (List.of_mem_zip hy).1
        omega
      · have h1 := hmem _ y hy
        have h2 := hW t ht
        have h3 := hprod (t.mdeg.zip x)
        simp only [W] at h2
        exact le_trans (by nlinarith) h2
    · simp only [abs_pow]
      exact hW t ht
  have := add_ints p (fun t => (factors powiSquaring t x).foldl mul t.coef)
    (fun t => c t * ((t.mdeg.zip x).map fun y => X y.2 ^ y.1).prod) hT isInt_zero (K := 0) (by simp) ?_
  · rw [zero_add] at this
    exact this
  · rw [zero_add]
    refine le_trans (List.sum_le_sum fun t _ => ?_) hb
    rw [abs_mul]
    exact mul_le_mul_of_nonneg_left (habs _) (abs_nonneg _)

/-- Cases: `3 x^5 - 2 y^3` at `(7, 10)` is `48421`, exactly; the fifth power of the float next to `1/3` is rounded; `0.0` to the power
`0` is `1.0`, and the powers of a subnormal number are `0.0`. -/
theorem C232_run : letI := field .debug powiSquaring
    Poly.eval [⟨fin false (3 * unit), [5]⟩, ⟨fin true (2 * unit), [0, 3]⟩] [fin false (7 * unit), fin false (10 * unit)] =
      .ok (fin false (48421 * unit)) ∧
    powiSquaring (div one three) (5 : ℕ) ≠ div one (fin false (243 * unit)) ∧
    powiSquaring zero (0 : ℕ) = one ∧ powiSquaring (fin false 1) (2 : ℕ) = zero := by
  refine ⟨?_, ?_, ?_, ?_⟩ <;> fmt_decide

end Flt
end Verif
