import Verif.Num.F64
import Mathlib.Algebra.Order.Ring.Nat
import Mathlib.Data.Nat.Log
import Mathlib.Tactic.Linarith
import Mathlib.Tactic.Ring
import Mathlib.Tactic.Positivity
import Mathlib.Tactic.Push

/-!
# The rounding of the model of `f32` and `f64`

`roundNat a b` is the number with at most `sig + 1` significant bits that is nearest to `a / b`.  These
facts validate the model (`roundNat_nearest`, `roundNat_even`) and are used for the properties.
-/

namespace Verif

/-- Decides a closed fact about both formats. -/
macro "fmt_decide" : tactic => `(tactic| (cases ‹Fmt› <;> decide +kernel))
namespace Flt
open Fmt

/-! ### Rounding to an integer -/

theorem rne_bounds {a b : ℕ} (hb : 0 < b) :
    2 * a ≤ (2 * rne a b + 1) * b ∧ 2 * rne a b * b ≤ 2 * a + b ∧
    ((2 * a = (2 * rne a b + 1) * b ∨ 2 * rne a b * b = 2 * a + b) → rne a b % 2 = 0) := by
  have h := Nat.div_add_mod a b
  have hr := Nat.mod_lt a hb
  have hd : b * (a / b) = (a / b) * b := Nat.mul_comm _ _
  unfold rne
  dsimp only
  generalize a / b = q at *
  generalize a % b = r at *
  have e1 : 2 * (q + 1) * b = 2 * (q * b) + 2 * b := by ring
  have e2 : (2 * q + 1) * b = 2 * (q * b) + b := by ring
  have e3 : (2 * (q + 1) + 1) * b = 2 * (q * b) + 3 * b := by ring
  have e4 : 2 * q * b = 2 * (q * b) := by ring
  split_ifs with h1 h2 h3
  · rw [e2, e4]; refine ⟨by omega, by omega, fun h => by omega⟩
  · rw [e2, e4]; refine ⟨by omega, by omega, fun h => h3⟩
  · rw [e3, e1]; refine ⟨by omega, by omega, fun h => by omega⟩
  · rw [e3, e1]; refine ⟨by omega, by omega, fun h => by omega⟩

theorem rne_mono {a b a' b' : ℕ} (hb : 0 < b) (hb' : 0 < b') (h : a * b' ≤ a' * b) :
    rne a b ≤ rne a' b' := by
  by_contra hlt
  push Not at hlt
  obtain ⟨-, h1, h2⟩ := rne_bounds (a := a) hb
  obtain ⟨h3, -, h4⟩ := rne_bounds (a := a') hb'
  generalize rne a b = n at *
  generalize rne a' b' = n' at *
  have hbb : 0 < b * b' := Nat.mul_pos hb hb'
  have k1 : 2 * n * b * b' ≤ (2 * a + b) * b' := Nat.mul_le_mul_right _ h1
  have k2 : 2 * a' * b ≤ (2 * n' + 1) * b' * b := Nat.mul_le_mul_right _ h3
  have k3 : 2 * n * (b * b') ≤ (2 * n' + 2) * (b * b') := by nlinarith
  have k4 : 2 * n ≤ 2 * n' + 2 := Nat.le_of_mul_le_mul_right k3 hbb
  have hn : n = n' + 1 := by omega
  subst hn
  have e1 : 2 * (n' + 1) * b = 2 * a + b := by
    apply Nat.eq_of_mul_eq_mul_right hb'
    nlinarith
  have e2 : 2 * a' = (2 * n' + 1) * b' := by
    apply Nat.eq_of_mul_eq_mul_right hb
    nlinarith
  have := h2 (Or.inr e1)
  have := h4 (Or.inl e2)
  omega

theorem rne_mul_self (q : ℕ) {b : ℕ} (hb : 0 < b) : rne (q * b) b = q := by
  unfold rne
  simp [Nat.mul_div_cancel _ hb, hb]

theorem rne_one (q : ℕ) : rne q 1 = q := by simpa using rne_mul_self q one_pos

/-! ### Rounding to `sig + 1` significant bits -/

variable [Fmt]

theorem sig_cases : sig = 23 ∨ sig = 52 := by
  cases ‹Fmt› <;> simp [sig]

/-- The exponent by which a number of integral part `q` is shifted before rounding. -/
def expo (q : ℕ) : ℕ := Nat.log2 q - sig

theorem log2_lt {q : ℕ} (h : q < 2 ^ (sig + 1)) : Nat.log2 q ≤ sig := by
  by_cases h0 : q = 0
  · subst h0; simp [Nat.log2]
  · have := (Nat.log2_lt h0).mpr h
    omega

theorem expo_small {q : ℕ} (h : q < 2 ^ (sig + 1)) : expo q = 0 := by
  unfold expo
  have := log2_lt h
  omega

theorem roundNat_eq (a b : ℕ) : roundNat a b = rne a (b * 2 ^ expo (a / b)) * 2 ^ expo (a / b) := by
  unfold roundNat
  dsimp only
  split
  · rename_i h
    rw [expo_small h]; simp
  · rfl

theorem roundNat_zero : roundNat 0 1 = 0 := by
  cases ‹Fmt› <;> rfl

theorem expo_mono {q q' : ℕ} (h : q ≤ q') : expo q ≤ expo q' := by
  unfold expo
  rw [Nat.log2_eq_log_two, Nat.log2_eq_log_two]
  have := Nat.log_mono_right (b := 2) h
  omega

/-- `q` is below the next power of two. -/
theorem lt_of_expo (q : ℕ) : q < 2 ^ (sig + 1 + expo q) := by
  by_cases h : q < 2 ^ (sig + 1)
  · rw [expo_small h]; simpa using h
  · have h0 : q ≠ 0 := by rintro rfl; simp at h
    have h53 : sig + 1 ≤ Nat.log2 q := (Nat.le_log2 h0).mpr (by omega)
    have : q < 2 ^ (Nat.log2 q + 1) := Nat.lt_log2_self
    have e : sig + 1 + expo q = Nat.log2 q + 1 := by unfold expo; omega
    rwa [e]

theorem le_of_expo {q : ℕ} (h : 0 < expo q) : 2 ^ (sig + expo q) ≤ q := by
  have h0 : q ≠ 0 := by rintro rfl; simp [expo] at h
  have e : sig + expo q = Nat.log2 q := by unfold expo at *; omega
  rw [e]
  exact Nat.log2_self_le h0

omit [Fmt] in
theorem rne_le {a b n : ℕ} (hb : 0 < b) (h : a ≤ n * b) : rne a b ≤ n := by
  have := rne_mono (a := a) (b := b) (a' := n) (b' := 1) hb one_pos (by simpa using h)
  rwa [rne_one] at this

omit [Fmt] in
theorem le_rne {a b n : ℕ} (hb : 0 < b) (h : n * b ≤ a) : n ≤ rne a b := by
  have := rne_mono (a := n) (b := 1) (a' := a) (b' := b) one_pos hb (by simpa using h)
  rwa [rne_one] at this

theorem lt_mul_of_expo (a : ℕ) {b : ℕ} (hb : 0 < b) :
    a < 2 ^ (sig + 1) * (b * 2 ^ expo (a / b)) := by
  have h := lt_of_expo (a / b)
  have := (Nat.div_lt_iff_lt_mul hb).mp h
  calc a < 2 ^ (sig + 1 + expo (a / b)) * b := this
    _ = _ := by rw [pow_add]; ring

/-- The significand of a rounded number. -/
theorem significand_le (a : ℕ) {b : ℕ} (hb : 0 < b) : rne a (b * 2 ^ expo (a / b)) ≤ 2 ^ (sig + 1) :=
  rne_le (Nat.mul_pos hb (by positivity)) (lt_mul_of_expo a hb).le

theorem le_significand (a : ℕ) {b : ℕ} (hb : 0 < b) (h : 0 < expo (a / b)) :
    2 ^ sig ≤ rne a (b * 2 ^ expo (a / b)) := by
  refine le_rne (Nat.mul_pos hb (by positivity)) ?_
  have := le_of_expo h
  calc 2 ^ sig * (b * 2 ^ expo (a / b)) = 2 ^ (sig + expo (a / b)) * b := by rw [pow_add]; ring
    _ ≤ a / b * b := Nat.mul_le_mul_right _ this
    _ ≤ a := Nat.div_mul_le_self a b

/-- Rounding is monotone. -/
theorem roundNat_mono {a b a' b' : ℕ} (hb : 0 < b) (hb' : 0 < b') (h : a * b' ≤ a' * b) :
    roundNat a b ≤ roundNat a' b' := by
  rw [roundNat_eq, roundNat_eq]
  have hq : a / b ≤ a' / b' := by
    rw [Nat.le_div_iff_mul_le hb']
    have h1 : a / b * b ≤ a := Nat.div_mul_le_self a b
    have h2 : a / b * b * b' ≤ a' * b := (Nat.mul_le_mul_right b' h1).trans h
    have h3 : a / b * b' * b ≤ a' * b := by
      calc a / b * b' * b = a / b * b * b' := by ring
        _ ≤ _ := h2
    exact Nat.le_of_mul_le_mul_right h3 hb
  have hk := expo_mono hq
  rcases hk.lt_or_eq with hlt | heq
  · have h1 := significand_le a hb
    have h2 := le_significand a' hb' (by omega)
    calc rne a (b * 2 ^ expo (a / b)) * 2 ^ expo (a / b) ≤ 2 ^ (sig + 1) * 2 ^ expo (a / b) :=
          Nat.mul_le_mul_right _ h1
      _ = 2 ^ sig * 2 ^ (expo (a / b) + 1) := by rw [pow_succ, pow_succ]; ring
      _ ≤ 2 ^ sig * 2 ^ expo (a' / b') := Nat.mul_le_mul_left _ (Nat.pow_le_pow_right (by norm_num) hlt)
      _ ≤ _ := Nat.mul_le_mul_right _ h2
  · rw [← heq]
    refine Nat.mul_le_mul_right _ (rne_mono (Nat.mul_pos hb (by positivity))
      (Nat.mul_pos hb' (by positivity)) ?_)
    calc a * (b' * 2 ^ expo (a / b)) = a * b' * 2 ^ expo (a / b) := by ring
      _ ≤ a' * b * 2 ^ expo (a / b) := Nat.mul_le_mul_right _ h
      _ = _ := by ring

/-- A number with at most `sig + 1` significant bits. -/
def ReprP (n : ℕ) : Prop := ∃ r k, n = r * 2 ^ k ∧ r ≤ 2 ^ (sig + 1)

theorem repr53_dvd {n : ℕ} (h : ReprP n) : 2 ^ expo n ∣ n := by
  obtain ⟨r, k, rfl, hr⟩ := h
  by_cases h0 : expo (r * 2 ^ k) = 0
  · rw [h0]; exact ⟨_, (one_mul _).symm⟩
  · have hle := le_of_expo (Nat.pos_of_ne_zero h0)
    by_cases hk : expo (r * 2 ^ k) ≤ k
    · exact (pow_dvd_pow 2 hk).trans (Dvd.intro_left _ rfl)
    · have h1 : r * 2 ^ k ≤ 2 ^ (sig + 1 + k) := by rw [pow_add]; exact Nat.mul_le_mul_right _ hr
      have h2 : 2 ^ (sig + 1 + k) ≤ 2 ^ (sig + expo (r * 2 ^ k)) := Nat.pow_le_pow_right (by norm_num) (by omega)
      have h3 : sig + expo (r * 2 ^ k) ≤ sig + 1 + k := (Nat.pow_le_pow_iff_right (by norm_num)).mp (hle.trans h1)
      have h4 : expo (r * 2 ^ k) = k + 1 := by omega
      have h5 : r * 2 ^ k = 2 ^ (sig + 1 + k) := le_antisymm h1 (h2.trans hle)
      rw [h4, h5]
      exact pow_dvd_pow 2 (by omega)

/-- A number with at most `sig + 1` significant bits is not changed by rounding. -/
theorem roundNat_of_repr {n : ℕ} (h : ReprP n) : roundNat n 1 = n := by
  rw [roundNat_eq, Nat.div_one, one_mul]
  obtain ⟨q, hq⟩ := repr53_dvd h
  generalize expo n = k at *
  rw [hq, mul_comm (2 ^ k) q, rne_mul_self q (by positivity)]

theorem repr_roundNat (a : ℕ) {b : ℕ} (hb : 0 < b) : ReprP (roundNat a b) :=
  ⟨_, _, roundNat_eq a b, significand_le a hb⟩

theorem repr53_iff {n : ℕ} : ReprP n ↔ roundNat n 1 = n :=
  ⟨roundNat_of_repr, fun h => h ▸ repr_roundNat n one_pos⟩

theorem repr53_pow (k : ℕ) : ReprP (2 ^ k) := ⟨1, k, by simp, Nat.one_le_two_pow⟩

/-- `roundNat a b` is nearest to `a / b` among the numbers with at most `sig + 1` significant bits:
`|a - b * roundNat a b| ≤ |a - b * m|`. -/
theorem roundNat_nearest (a : ℕ) {b m : ℕ} (hb : 0 < b) (hm : ReprP m) :
    |(a : ℤ) - b * roundNat a b| ≤ |(a : ℤ) - b * m| := by
  -- nearest among the multiples of `2 ^ k`
  set k := expo (a / b) with hk
  have hB : 0 < b * 2 ^ k := Nat.mul_pos hb (by positivity)
  have near : ∀ q : ℕ, |(a : ℤ) - b * roundNat a b| ≤ |(a : ℤ) - b * (q * 2 ^ k : ℕ)| := by
    intro q
    rw [roundNat_eq, ← hk]
    obtain ⟨h1, h2, -⟩ := rne_bounds (a := a) hB
    generalize rne a (b * 2 ^ k) = n at *
    have e1 : (a : ℤ) - b * (n * 2 ^ k : ℕ) = a - n * (b * 2 ^ k : ℕ) := by push_cast; ring
    have e2 : (a : ℤ) - b * (q * 2 ^ k : ℕ) = a - q * (b * 2 ^ k : ℕ) := by push_cast; ring
    rw [e1, e2]
    generalize b * 2 ^ k = B at *
    have h1' : 2 * (a : ℤ) ≤ 2 * (n * B) + B := by
      have : (2 * a : ℤ) ≤ (2 * n + 1) * B := by exact_mod_cast h1
      linarith
    have h2' : 2 * ((n : ℤ) * B) ≤ 2 * a + B := by
      have : (2 * n * B : ℤ) ≤ 2 * a + B := by exact_mod_cast h2
      linarith
    have hB' : (0 : ℤ) < B := by exact_mod_cast hB
    rcases lt_trichotomy q n with hlt | heq | hgt
    · have : (q : ℤ) * B + B ≤ n * B := by
        have : (q : ℤ) + 1 ≤ n := by exact_mod_cast hlt
        nlinarith
      rw [abs_le]; constructor
      · have := le_abs_self ((a : ℤ) - q * B); linarith
      · have := le_abs_self ((a : ℤ) - q * B); linarith
    · rw [heq]
    · have : (n : ℤ) * B + B ≤ q * B := by
        have : (n : ℤ) + 1 ≤ q := by exact_mod_cast hgt
        nlinarith
      rw [abs_le]; constructor
      · have := neg_le_abs ((a : ℤ) - q * B); linarith
      · have := neg_le_abs ((a : ℤ) - q * B); linarith
  by_cases hdvd : 2 ^ k ∣ m
  · obtain ⟨q, rfl⟩ := hdvd
    rw [mul_comm (2 ^ k) q]
    exact near q
  · -- then `m` is smaller than `2 ^ (sig + k)`, which is at most `a / b`
    have hk0 : 0 < k := by
      by_contra h
      have : k = 0 := by omega
      rw [this] at hdvd
      exact hdvd ⟨m, by simp⟩
    have hmlt : m < 2 ^ (sig + k) := by
      by_contra hge
      push Not at hge
      apply hdvd
      have h1 : sig + k ≤ Nat.log2 m := (Nat.le_log2 (by rintro rfl; simp at hge)).mpr hge
      refine dvd_trans (pow_dvd_pow 2 ?_) (repr53_dvd hm)
      unfold expo; omega
    have hle : 2 ^ (sig + k) * b ≤ a :=
      (Nat.mul_le_mul_right _ (le_of_expo hk0)).trans (Nat.div_mul_le_self a b)
    refine (near (2 ^ sig)).trans ?_
    rw [← pow_add]
    have h1 : ((2 : ℤ) ^ (sig + k)) * b ≤ a := by exact_mod_cast hle
    have h2 : (m : ℤ) * b ≤ (2 : ℤ) ^ (sig + k) * b := by
      have : (m : ℤ) ≤ (2 : ℤ) ^ (sig + k) := by exact_mod_cast hmlt.le
      exact mul_le_mul_of_nonneg_right this (by positivity)
    push_cast
    rw [abs_of_nonneg (by linarith), abs_of_nonneg (by linarith)]
    linarith

/-- In a tie the significand is even: if another such number at the same scale is equally near. -/
theorem roundNat_even (a : ℕ) {b : ℕ} (hb : 0 < b)
    (h : 2 * a = (2 * rne a (b * 2 ^ expo (a / b)) + 1) * (b * 2 ^ expo (a / b)) ∨
      2 * rne a (b * 2 ^ expo (a / b)) * (b * 2 ^ expo (a / b)) = 2 * a + b * 2 ^ expo (a / b)) :
    ∃ r, roundNat a b = 2 * r * 2 ^ expo (a / b) := by
  have := (rne_bounds (a := a) (Nat.mul_pos hb (by positivity : 0 < 2 ^ expo (a / b)))).2.2 h
  rw [roundNat_eq]
  generalize rne a (b * 2 ^ expo (a / b)) = n at *
  exact ⟨n / 2, by rw [show 2 * (n / 2) = n by omega]⟩

end Flt
end Verif
