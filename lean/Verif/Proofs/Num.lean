import Verif.Num.Field
import Mathlib.Data.Rat.Defs
import Mathlib.Data.Rat.Lemmas
import Mathlib.Algebra.Order.Field.Rat
import Mathlib.Algebra.Order.Field.Basic
import Mathlib.Tactic.FieldSimp
import Mathlib.Tactic.Ring
import Mathlib.Tactic.Linarith
import Mathlib.Tactic.Positivity
import Mathlib.Tactic.Use
import Mathlib.Data.Int.Order.Lemmas

/-! # Lemmas about `Integer` and `Rational` -/

namespace Verif
open Res

/-- The only panic of checked `i64` arithmetic. -/
def IsOverflow (p : Panic) : Prop := p = .overflowI64

namespace I64

theorem norm_eq {b : Build} {x : Int} (h : InRange x) : norm b x = .ok x := by
  simp [norm, h]

theorem norm_spec (x : Int) : Spec IsOverflow (norm .debug x) (fun y => y = x ∧ InRange x) := by
  unfold norm
  split
  · exact ⟨rfl, by assumption⟩
  · rfl

theorem norm_refines (x : Int) : Refines (norm .debug x) (norm .release x) := by
  intro a h
  unfold norm at *
  split at h
  · rename_i hx; simp [hx]; simpa using h
  · simp at h

end I64

namespace Integer

theorem add_spec (x y : Int) : Spec IsOverflow (add .debug x y) (fun z => z = x + y) :=
  (I64.norm_spec _).imp fun _ h => h.1
theorem sub_spec (x y : Int) : Spec IsOverflow (sub .debug x y) (fun z => z = x - y) :=
  (I64.norm_spec _).imp fun _ h => h.1
theorem mul_spec (x y : Int) : Spec IsOverflow (mul .debug x y) (fun z => z = x * y) :=
  (I64.norm_spec _).imp fun _ h => h.1
theorem neg_spec (x : Int) : Spec IsOverflow (neg .debug x) (fun z => z = -x) :=
  (I64.norm_spec _).imp fun _ h => h.1
theorem abs_spec (x : Int) : Spec IsOverflow (abs .debug x) (fun z => z = x.natAbs) :=
  (I64.norm_spec _).imp fun _ h => h.1
theorem pow_spec (x e : Int) : Spec IsOverflow (pow .debug x e) (fun z => z = x ^ asU32 e) :=
  (I64.norm_spec _).imp fun _ h => h.1
theorem div_spec (x y : Int) (hy : y ≠ 0) :
    Spec IsOverflow (div x y) (fun z => z = Int.tdiv x y) := by
  unfold div; rw [if_neg hy]; split
  · rfl
  · exact rfl

/-- The `gcd` loop never runs out of its bound, and preserves the gcd. -/
theorem gcdLoop_spec (n : Nat) (a b : Int) (h : b.natAbs < n) :
    Spec IsOverflow (gcdLoop n a b) (fun r => r.natAbs = Int.gcd a b) := by
  induction n generalizing a b with
  | zero => omega
  | succ n ih =>
    unfold gcdLoop
    split
    · rename_i hb; subst hb; simp
    · rename_i hb
      unfold rem
      rw [if_neg hb]
      split
      · rfl
      · simp only [bind_ok]
        have hlt : (a.tmod b).natAbs < b.natAbs := by
          rw [Int.natAbs_tmod]
          exact Nat.mod_lt _ (Int.natAbs_pos.mpr hb)
        refine (ih b (a.tmod b) (by omega)).imp ?_
        intro r hr
        rw [hr, Int.gcd, Int.natAbs_tmod, Int.gcd, Nat.gcd_comm, ← Nat.gcd_rec, Nat.gcd_comm]

/-- Below the extreme `i64::MIN`, the loop does not panic. -/
theorem gcdLoop_total (n : Nat) (a b : Int) (h : b.natAbs < n) (ha : a ≠ I64.MIN)
    (hb : b ≠ I64.MIN) (hr : I64.InRange b) :
    ∃ r, gcdLoop n a b = .ok r ∧ r.natAbs = Int.gcd a b := by
  suffices H : ∃ r, gcdLoop n a b = .ok r by
    obtain ⟨r, e⟩ := H
    exact ⟨r, e, (gcdLoop_spec n a b h).of_ok e⟩
  induction n generalizing a b with
  | zero => omega
  | succ n ih =>
    unfold gcdLoop
    split
    · exact ⟨a, rfl⟩
    · rename_i hb0
      unfold rem
      rw [if_neg hb0, if_neg (by tauto)]
      simp only [bind_ok]
      have hlt : (a.tmod b).natAbs < b.natAbs := by
        rw [Int.natAbs_tmod]
        exact Nat.mod_lt _ (Int.natAbs_pos.mpr hb0)
      have hr' := hr
      unfold I64.InRange at hr
      refine ih b (a.tmod b) (by omega) hb ?_ ?_
      · unfold I64.MIN; omega
      · unfold I64.InRange; omega

/-- The complete behaviour of `gcd` on `i64`. -/
theorem gcd_eq (bd : Build) (a b : Int) (ha : I64.InRange a) (hb : I64.InRange b) :
    gcd bd a b =
      if (a = I64.MIN ∧ b = -1) ∨ (a = -1 ∧ b = I64.MIN) then .panic .overflowI64
      else I64.norm bd (Int.gcd a b) := by
  have key : ∀ n a b, b.natAbs < n → b ≠ 0 → b ≠ I64.MIN → I64.InRange b →
      ¬ (a = I64.MIN ∧ b = -1) → ∃ r, gcdLoop n a b = .ok r ∧ r.natAbs = Int.gcd a b := by
    intro n a b h h0 hm hr hne
    suffices H : ∃ r, gcdLoop n a b = .ok r by
      obtain ⟨r, e⟩ := H
      exact ⟨r, e, (gcdLoop_spec n a b h).of_ok e⟩
    cases n with
    | zero => omega
    | succ n =>
      unfold gcdLoop
      rw [if_neg h0]
      unfold rem
      rw [if_neg h0, if_neg hne]
      simp only [bind_ok]
      have hlt : (a.tmod b).natAbs < b.natAbs := by
        rw [Int.natAbs_tmod]
        exact Nat.mod_lt _ (Int.natAbs_pos.mpr h0)
      have hr' := hr
      unfold I64.InRange at hr
      obtain ⟨r, e, _⟩ := gcdLoop_total n b (a.tmod b) (by omega) hm
        (by unfold I64.MIN; omega) (by unfold I64.InRange; omega)
      exact ⟨r, e⟩
  unfold gcd
  by_cases hb0 : b = 0
  · subst hb0
    have : ¬((a = I64.MIN ∧ (0 : Int) = -1) ∨ (a = -1 ∧ (0 : Int) = I64.MIN)) := by
      unfold I64.MIN; omega
    rw [if_neg this]
    simp [gcdLoop, abs]
  by_cases h1 : a = I64.MIN ∧ b = -1
  · rw [if_pos (Or.inl h1)]
    unfold gcdLoop rem
    rw [if_neg hb0, if_neg hb0, if_pos h1]
    rfl
  by_cases hbm : b = I64.MIN
  · -- the first iteration moves `b` to the front
    have hlt : (a.tmod b).natAbs < b.natAbs := by
      rw [Int.natAbs_tmod]
      exact Nat.mod_lt _ (Int.natAbs_pos.mpr hb0)
    have hstep : gcdLoop (b.natAbs + 1) a b = gcdLoop b.natAbs b (a.tmod b) := by
      rw [gcdLoop]
      rw [if_neg hb0]
      unfold rem
      rw [if_neg hb0, if_neg h1]
      rfl
    have hsame : Int.gcd b (a.tmod b) = Int.gcd a b := by
      rw [Int.gcd, Int.natAbs_tmod, Int.gcd, Nat.gcd_comm, ← Nat.gcd_rec, Nat.gcd_comm]
    rw [hstep]
    by_cases hmod : a.tmod b = 0
    · rw [hmod]
      have hne : ¬ (a = -1 ∧ b = I64.MIN) := by
        rintro ⟨rfl, rfl⟩; revert hmod; decide
      rw [if_neg (by tauto)]
      obtain ⟨k, hk⟩ : ∃ k, b.natAbs = k + 1 := ⟨b.natAbs - 1, by omega⟩
      rw [hk, gcdLoop, if_pos rfl]
      simp only [bind_ok, abs]
      rw [← hsame, hmod]; simp
    · have hmodeq : a.tmod b = -1 ↔ a = -1 := by
        have hd := Int.mul_tdiv_add_tmod a b
        unfold I64.InRange at ha
        rw [hbm] at hd hmod ⊢
        constructor
        · intro h
          have hneg : a < 0 := by
            by_contra hc
            have := Int.tmod_nonneg I64.MIN (by omega : 0 ≤ a)
            omega
          rw [h] at hd
          unfold I64.MIN at *
          have : a.tdiv (-9223372036854775808) = 0 ∨ a.tdiv (-9223372036854775808) ≥ 1 ∨ a.tdiv (-9223372036854775808) ≤ -1 := by omega
          omega
        · rintro rfl; decide
      by_cases hm1 : a = -1
      · rw [if_pos (Or.inr ⟨hm1, hbm⟩), hmodeq.mpr hm1]
        obtain ⟨k, hk⟩ : ∃ k, b.natAbs = k + 1 := ⟨b.natAbs - 1, by omega⟩
        rw [hk, gcdLoop, if_neg (by omega)]
        unfold rem
        rw [if_neg (by omega), if_pos ⟨hbm, rfl⟩]
        rfl
      · rw [if_neg (by tauto)]
        have hb' := hb
        unfold I64.InRange at hb
        obtain ⟨r, e, hr⟩ := key b.natAbs b (a.tmod b) hlt hmod (by unfold I64.MIN; omega)
          (by unfold I64.InRange; omega) (by tauto)
        rw [e]
        simp only [bind_ok, abs]
        rw [hr, hsame]
  · obtain ⟨r, e, hr⟩ := key (b.natAbs + 1) a b (by omega) hb0 hbm hb h1
    rw [if_neg (by tauto), e]
    simp only [bind_ok, abs]
    rw [hr]

theorem gcd_spec (a b : Int) :
    Spec IsOverflow (gcd .debug a b) (fun r => r = Int.gcd a b) := by
  unfold gcd
  refine (gcdLoop_spec _ a b (by omega)).bind ?_
  intro r hr
  exact (abs_spec r).imp fun z hz => by rw [hz, hr]

theorem sgn_mul_self (x : Int) : Int.sign x * x = x.natAbs := Int.sign_mul_self_eq_natAbs x

end Integer

namespace Rational

/-- The rational number a `Rational` stands for. -/
def val (x : Rational) : ℚ := (x.numer : ℚ) / (x.denom : ℚ)

/-- Invariant of `Rational`s produced by the public API: positive denominator, one zero. -/
structure WF (x : Rational) : Prop where
  denom_pos : 0 < x.denom
  zero_canon : x.numer = 0 → x.denom = 1

/-- Lowest terms with positive denominator ("simplest form", rat.rs:20). -/
structure Simplest (x : Rational) : Prop where
  denom_pos : 0 < x.denom
  coprime : Int.gcd x.numer x.denom = 1

theorem Simplest.wf {x : Rational} (h : Simplest x) : WF x := by
  refine ⟨h.denom_pos, fun h0 => ?_⟩
  have := h.coprime
  rw [h0, Int.gcd_zero_left] at this
  have := h.denom_pos
  omega

theorem wf_ZERO : WF ZERO := ⟨by decide, by decide⟩
theorem wf_ONE : WF ONE := ⟨by decide, by decide⟩
theorem val_ZERO : val ZERO = 0 := by simp [val, ZERO]
theorem val_ONE : val ONE = 1 := by simp [val, ONE]

theorem WF.denom_ne {x : Rational} (h : WF x) : (x.denom : ℚ) ≠ 0 := by
  have := h.denom_pos
  exact_mod_cast this.ne'

theorem val_eq_zero_iff {x : Rational} (h : 0 < x.denom) : x.val = 0 ↔ x.numer = 0 := by
  have : (x.denom : ℚ) ≠ 0 := by exact_mod_cast h.ne'
  simp [val, this]

theorem wf_val_zero {x : Rational} (h : WF x) : x.val = 0 ↔ x = ZERO := by
  rw [val_eq_zero_iff h.denom_pos]
  constructor
  · intro h0
    cases x
    simp_all [ZERO]
    exact h.zero_canon rfl
  · rintro rfl; rfl

theorem new_spec (n d : Int) (hd : d ≠ 0) :
    Spec IsOverflow (new .debug n d) (fun z => Simplest z ∧ z.val = (n : ℚ) / d) := by
  unfold new
  rw [if_neg (by simpa [Integer.isZero] using hd)]
  refine (Integer.gcd_spec n d).bind ?_
  rintro g rfl
  have hg : 0 < Int.gcd n d := Int.gcd_pos_of_ne_zero_right n hd
  have hg' : (Int.gcd n d : Int) ≠ 0 := by exact_mod_cast hg.ne'
  refine (Integer.mul_spec _ _).bind ?_
  rintro sn rfl
  refine (Integer.div_spec _ _ hg').bind ?_
  rintro n' rfl
  refine (Integer.abs_spec _).bind ?_
  rintro ad rfl
  refine (Integer.div_spec _ _ hg').bind ?_
  rintro d' rfl
  simp only [spec_pure, newUnchecked, Integer.sgn]
  have hdn : (Int.gcd n d : Int) ∣ n := Int.gcd_dvd_left n d
  have hdd : (Int.gcd n d : Int) ∣ d := Int.gcd_dvd_right n d
  obtain ⟨n₁, hn₁⟩ := hdn
  obtain ⟨d₁, hd₁⟩ := hdd
  have hcop : Int.gcd n₁ d₁ = 1 := by
    have h := Int.gcd_mul_left (Int.gcd n d) n₁ d₁
    rw [← hn₁, ← hd₁, Int.natAbs_natCast] at h
    have : Int.gcd n d * Int.gcd n₁ d₁ = Int.gcd n d * 1 := by omega
    exact Nat.eq_of_mul_eq_mul_left hg this
  have hd₁0 : d₁ ≠ 0 := by rintro rfl; simp at hd₁; exact hd hd₁
  have e1 : (d.sign * n).tdiv (Int.gcd n d) = d₁.sign * n₁ := by
    conv_lhs => rw [hn₁]
    have hs : d.sign = d₁.sign := by
      rw [hd₁, Int.sign_mul, Int.sign_eq_one_of_pos (by exact_mod_cast hg), one_mul]
    rw [hs, ← hn₁]
    have : d₁.sign * n = (Int.gcd n d : Int) * (d₁.sign * n₁) := by
      calc d₁.sign * n = d₁.sign * ((Int.gcd n d : Int) * n₁) := by rw [← hn₁]
        _ = _ := by ring
    rw [this, Int.mul_tdiv_cancel_left _ hg']
  have e2 : ((d.natAbs : Int)).tdiv (Int.gcd n d) = d₁.natAbs := by
    have : (d.natAbs : Int) = (Int.gcd n d : Int) * d₁.natAbs := by
      have := congrArg Int.natAbs hd₁
      rw [Int.natAbs_mul, Int.natAbs_natCast] at this
      exact_mod_cast this
    rw [this, Int.mul_tdiv_cancel_left _ hg']
  rw [e1, e2]
  refine ⟨⟨?_, ?_⟩, ?_⟩
  · simp only []; omega
  · simp only [Int.gcd, Int.natAbs_mul, Int.natAbs_natCast, Int.natAbs_sign_of_ne_zero hd₁0, one_mul]
    exact hcop
  · simp only [val]
    have q1 : (n : ℚ) = (Int.gcd n d : ℚ) * n₁ := by exact_mod_cast hn₁
    have q2 : (d : ℚ) = (Int.gcd n d : ℚ) * d₁ := by exact_mod_cast hd₁
    have hgq : (Int.gcd n d : ℚ) ≠ 0 := by exact_mod_cast hg.ne'
    have hdq : (d₁ : ℚ) ≠ 0 := by exact_mod_cast hd₁0
    rw [q1, q2, mul_div_mul_left _ _ hgq]
    rcases lt_or_gt_of_ne hd₁0 with h | h
    · have : ((d₁.natAbs : Int) : ℚ) = -d₁ := by
        have : (d₁.natAbs : Int) = -d₁ := by omega
        rw [this]; push_cast; ring
      rw [Int.sign_eq_neg_one_of_neg h, this]
      push_cast
      rw [neg_one_mul, neg_div_neg_eq]
    · have : ((d₁.natAbs : Int) : ℚ) = d₁ := by
        have : (d₁.natAbs : Int) = d₁ := by omega
        rw [this]
      rw [Int.sign_eq_one_of_pos h, this]
      push_cast
      rw [one_mul]

theorem add_spec (x y : Rational) (hx : 0 < x.denom) (hy : 0 < y.denom) :
    Spec IsOverflow (add .debug x y) (fun z => WF z ∧ z.val = x.val + y.val) := by
  unfold add
  refine (Integer.mul_spec _ _).bind ?_
  rintro _ rfl
  refine (Integer.mul_spec _ _).bind ?_
  rintro _ rfl
  refine (Integer.add_spec _ _).bind ?_
  rintro _ rfl
  have hxq : (x.denom : ℚ) ≠ 0 := by exact_mod_cast hx.ne'
  have hyq : (y.denom : ℚ) ≠ 0 := by exact_mod_cast hy.ne'
  have hv : x.val + y.val = ((x.numer * y.denom + y.numer * x.denom : Int) : ℚ) /
      ((x.denom * y.denom : Int) : ℚ) := by
    unfold val; push_cast; field_simp
  split
  · rename_i h0
    have h0 : x.numer * y.denom + y.numer * x.denom = 0 := by simpa [Integer.isZero] using h0
    refine ⟨wf_ZERO, ?_⟩
    rw [hv, h0, val_ZERO]; simp
  · rename_i h0
    have h0 : ¬ x.numer * y.denom + y.numer * x.denom = 0 := by simpa [Integer.isZero] using h0
    refine (Integer.mul_spec _ _).bind ?_
    rintro _ rfl
    refine ⟨⟨mul_pos hx hy, fun h => absurd h h0⟩, ?_⟩
    rw [hv]; rfl

theorem sub_spec (x y : Rational) (hx : 0 < x.denom) (hy : 0 < y.denom) :
    Spec IsOverflow (sub .debug x y) (fun z => WF z ∧ z.val = x.val - y.val) := by
  unfold sub
  refine (Integer.mul_spec _ _).bind ?_
  rintro _ rfl
  refine (Integer.mul_spec _ _).bind ?_
  rintro _ rfl
  refine (Integer.sub_spec _ _).bind ?_
  rintro _ rfl
  have hxq : (x.denom : ℚ) ≠ 0 := by exact_mod_cast hx.ne'
  have hyq : (y.denom : ℚ) ≠ 0 := by exact_mod_cast hy.ne'
  have hv : x.val - y.val = ((x.numer * y.denom - y.numer * x.denom : Int) : ℚ) /
      ((x.denom * y.denom : Int) : ℚ) := by
    unfold val; push_cast; field_simp
  split
  · rename_i h0
    have h0 : x.numer * y.denom - y.numer * x.denom = 0 := by simpa [Integer.isZero] using h0
    refine ⟨wf_ZERO, ?_⟩
    rw [hv, h0, val_ZERO]; simp
  · rename_i h0
    have h0 : ¬ x.numer * y.denom - y.numer * x.denom = 0 := by simpa [Integer.isZero] using h0
    refine (Integer.mul_spec _ _).bind ?_
    rintro _ rfl
    refine ⟨⟨mul_pos hx hy, fun h => absurd h h0⟩, ?_⟩
    rw [hv]; rfl

theorem neg_spec (x : Rational) :
    Spec IsOverflow (neg .debug x) (fun z => z.numer = -x.numer ∧ z.denom = x.denom) := by
  unfold neg
  refine (Integer.neg_spec _).bind ?_
  rintro _ rfl
  exact ⟨rfl, rfl⟩

theorem mul_spec (x y : Rational) (hx : 0 < x.denom) (hy : 0 < y.denom) :
    Spec IsOverflow (mul .debug x y) (fun z => Simplest z ∧ z.val = x.val * y.val) := by
  unfold mul
  refine (Integer.mul_spec _ _).bind ?_
  rintro _ rfl
  refine (Integer.mul_spec _ _).bind ?_
  rintro _ rfl
  refine (new_spec _ _ (mul_pos hx hy).ne').imp ?_
  rintro z ⟨hz, hv⟩
  refine ⟨hz, ?_⟩
  rw [hv]; unfold val; push_cast; rw [div_mul_div_comm]

theorem div_spec (x y : Rational) (hx : 0 < x.denom) (hy : 0 < y.denom) (h0 : y.val ≠ 0) :
    Spec IsOverflow (div .debug x y) (fun z => Simplest z ∧ z.val = x.val / y.val) := by
  unfold div
  refine (Integer.mul_spec _ _).bind ?_
  rintro _ rfl
  refine (Integer.mul_spec _ _).bind ?_
  rintro _ rfl
  have hn : y.numer ≠ 0 := fun h => h0 ((val_eq_zero_iff hy).mpr h)
  refine (new_spec _ _ (mul_ne_zero hx.ne' hn)).imp ?_
  rintro z ⟨hz, hv⟩
  refine ⟨hz, ?_⟩
  rw [hv]; unfold val; push_cast; rw [div_div_div_eq]

theorem recip_spec (x : Rational) (hx : 0 < x.denom) (h0 : x.val ≠ 0) :
    Spec IsOverflow (recip .debug x) (fun z => 0 < z.denom ∧ z.numer ≠ 0 ∧
      Int.gcd z.numer z.denom = Int.gcd x.numer x.denom ∧ z.val = x.val⁻¹) := by
  unfold recip
  refine (Integer.mul_spec _ _).bind ?_
  rintro _ rfl
  refine (Integer.mul_spec _ _).bind ?_
  rintro _ rfl
  have hn : x.numer ≠ 0 := fun h => h0 ((val_eq_zero_iff hx).mpr h)
  have hs : x.numer.sign ≠ 0 := by rwa [Ne, Int.sign_eq_zero_iff_zero]
  simp only [spec_pure, newUnchecked, sgn, Integer.sgn]
  refine ⟨?_, mul_ne_zero hs hx.ne', ?_, ?_⟩
  · rw [Int.sign_mul_self_eq_natAbs]; omega
  · rw [Int.gcd_mul_left, Int.natAbs_sign_of_ne_zero hn, one_mul, Int.gcd_comm]
  · unfold val
    have : (x.numer.sign : ℚ) ≠ 0 := by exact_mod_cast hs
    push_cast
    rw [mul_div_mul_left _ _ this, inv_div]

theorem asU32_of_lt {e : Int} (h0 : 0 ≤ e) (h1 : e < 4294967296) : Integer.asU32 e = e.toNat := by
  unfold Integer.asU32
  rw [Int.emod_eq_of_lt h0 h1]

theorem pow_spec (x : Rational) (e : Int) (h0 : 0 ≤ e) (h1 : e < 4294967296) :
    Spec IsOverflow (pow .debug x e) (fun z =>
      z.numer = x.numer ^ e.toNat ∧ z.denom = x.denom ^ e.toNat) := by
  unfold pow
  rw [if_neg (by simpa [Integer.isNeg] using h0)]
  refine (Integer.pow_spec _ _).bind ?_
  rintro _ rfl
  refine (Integer.pow_spec _ _).bind ?_
  rintro _ rfl
  rw [asU32_of_lt h0 h1]
  exact ⟨rfl, rfl⟩

theorem pow_wf {x z : Rational} (h : WF x) {n : Nat} (hn : z.numer = x.numer ^ n)
    (hd : z.denom = x.denom ^ n) : WF z ∧ z.val = x.val ^ n := by
  refine ⟨⟨?_, ?_⟩, ?_⟩
  · rw [hd]; exact pow_pos h.denom_pos n
  · intro hz
    rw [hn] at hz
    rw [hd, h.zero_canon (pow_eq_zero_iff_of_pos hz), one_pow]
  · unfold val; rw [hn, hd]; push_cast; rw [div_pow]
where
  pow_eq_zero_iff_of_pos {a : Int} {n : Nat} (h : a ^ n = 0) : a = 0 := by
    by_contra hne; exact pow_ne_zero n hne h

theorem sum_spec (E : Panic → Prop) (hE : ∀ p, IsOverflow p → E p) (l : List (Res Rational))
    (vs : List ℚ) (h : List.Forall₂ (fun r v => Spec E r (fun c => WF c ∧ c.val = v)) l vs) :
    Spec E (sum .debug l) (fun c => WF c ∧ c.val = vs.sum) := by
  unfold sum
  cases h with
  | nil => exact ⟨wf_ZERO, by simp [val_ZERO]⟩
  | @cons r v l vs hr h =>
    refine hr.bind ?_
    intro a ha
    have key : ∀ (c : Rational), WF c → Spec E
        (l.foldlM (fun acc y => do let y ← y; add .debug acc y) c)
        (fun z => WF z ∧ z.val = c.val + vs.sum) := by
      clear hr ha
      induction h with
      | nil => intro c hc; exact ⟨hc, by simp⟩
      | @cons r v l vs hr h ih =>
        intro c hc
        rw [List.foldlM_cons]
        refine Spec.bind (hr.bind fun y hy => ((add_spec c y hc.denom_pos hy.1.denom_pos).mono hE
          (Q := fun z => WF z ∧ z.val = c.val + v) fun z hz => ⟨hz.1, by rw [hz.2, hy.2]⟩)) ?_
        intro d hd
        refine (ih d hd.1).imp fun z hz => ⟨hz.1, by rw [hz.2, hd.2, List.sum_cons, add_assoc]⟩
    refine (key a ha.1).imp fun z hz => ⟨hz.1, by rw [hz.2, ha.2, List.sum_cons]⟩

theorem product_spec (E : Panic → Prop) (hE : ∀ p, IsOverflow p → E p) (l : List (Res Rational))
    (vs : List ℚ) (h : List.Forall₂ (fun r v => Spec E r (fun c => 0 < c.denom ∧ c.val = v)) l vs) :
    Spec E (product .debug l) (fun c => 0 < c.denom ∧ c.val = vs.prod) := by
  unfold product
  cases h with
  | nil => exact ⟨by decide, by simp [val_ONE]⟩
  | @cons r v l vs hr h =>
    refine hr.bind ?_
    intro a ha
    have key : ∀ (c : Rational), 0 < c.denom → Spec E
        (l.foldlM (fun acc y => do let y ← y; mul .debug acc y) c)
        (fun z => 0 < z.denom ∧ z.val = c.val * vs.prod) := by
      clear hr ha
      induction h with
      | nil => intro c hc; exact ⟨hc, by simp⟩
      | @cons r v l vs hr h ih =>
        intro c hc
        rw [List.foldlM_cons]
        refine Spec.bind (hr.bind fun y hy => ((mul_spec c y hc hy.1).mono hE
          (Q := fun z => 0 < z.denom ∧ z.val = c.val * v)
          fun z hz => ⟨hz.1.denom_pos, by rw [hz.2, hy.2]⟩)) ?_
        intro d hd
        refine (ih d hd.1).imp fun z hz => ⟨hz.1, by rw [hz.2, hd.2, List.prod_cons, mul_assoc]⟩
    refine (key a ha.1).imp fun z hz => ⟨hz.1, by rw [hz.2, ha.2, List.prod_cons]⟩

theorem cmp_spec (x y : Rational) (hx : 0 < x.denom) (hy : 0 < y.denom) :
    Spec IsOverflow (cmp .debug x y) (fun o => o = compare x.val y.val) := by
  unfold cmp
  refine (Integer.mul_spec _ _).bind ?_
  rintro _ rfl
  refine (Integer.mul_spec _ _).bind ?_
  rintro _ rfl
  simp only [spec_pure]
  have hxq : 0 < (x.denom : ℚ) := by exact_mod_cast hx
  have hyq : 0 < (y.denom : ℚ) := by exact_mod_cast hy
  have hlt : x.val < y.val ↔ x.numer * y.denom < y.numer * x.denom := by
    unfold val
    rw [div_lt_div_iff₀ hxq hyq]; norm_cast
  have hgt : y.val < x.val ↔ y.numer * x.denom < x.numer * y.denom := by
    unfold val
    rw [div_lt_div_iff₀ hyq hxq]; norm_cast
  rcases lt_trichotomy x.val y.val with h | h | h
  · rw [compare_lt_iff_lt.mpr h, compare_lt_iff_lt.mpr (hlt.mp h)]
  · rw [compare_eq_iff_eq.mpr h, compare_eq_iff_eq]
    have a1 := mt hlt.mpr (by rw [h]; exact lt_irrefl _)
    have a2 := mt hgt.mpr (by rw [h]; exact lt_irrefl _)
    omega
  · rw [compare_gt_iff_gt.mpr h, compare_gt_iff_gt.mpr (hgt.mp h)]

/-- `Rational` in an overflow-checked build is a lawful field. -/
@[reducible] def lawful : @LawfulRField Rational (field .debug) ℚ _ :=
  letI := field .debug
  { wf := WF
    val := val
    allowed := IsOverflow
    build_debug := rfl
    wf_zero := wf_ZERO
    val_zero := val_ZERO
    wf_one := wf_ONE
    val_one := val_ONE
    val_eq_of_beq := fun a b h => by
      have : a = b := by simpa [RField.beq] using h
      rw [this]
    beq_zero := fun a ha h => by
      have : a = ZERO := (wf_val_zero ha).mp h
      exact decide_eq_true this
    add_spec := fun a b ha hb => add_spec a b ha.denom_pos hb.denom_pos
    sub_spec := fun a b ha hb => sub_spec a b ha.denom_pos hb.denom_pos
    neg_spec := fun a ha => (neg_spec a).imp fun z hz => by
      refine ⟨⟨by rw [hz.2]; exact ha.denom_pos, fun h => ?_⟩, ?_⟩
      · rw [hz.2]; exact ha.zero_canon (by rw [hz.1] at h; omega)
      · unfold val; rw [hz.1, hz.2]; push_cast; rw [neg_div]
    mul_spec := fun a b ha hb => (mul_spec a b ha.denom_pos hb.denom_pos).imp
      fun z hz => ⟨hz.1.wf, hz.2⟩
    div_spec := fun a b ha hb h0 => (div_spec a b ha.denom_pos hb.denom_pos h0).imp
      fun z hz => ⟨hz.1.wf, hz.2⟩
    inv_spec := fun a ha h0 => (recip_spec a ha.denom_pos h0).imp
      fun z hz => ⟨⟨hz.1, fun h => absurd h hz.2.1⟩, hz.2.2.2⟩
    pow_spec := fun a n hn ha => (pow_spec a n (by omega) (by omega)).imp
      fun z hz => by simpa using pow_wf ha hz.1 hz.2
    sum_spec := sum_spec
    sum_strict := fun _ _ h => reduceM_strict h }

theorem lawfulPivot : @LawfulPivot Rational (field .debug) ℚ _ lawful _ (stability .debug) :=
  letI := field .debug
  letI := lawful
  letI := stability .debug
  { eps_zero := fun a ha => by
      change decide (a = ZERO) = true ↔ a.val = 0
      rw [wf_val_zero ha]; simp
    stab := fun a b ha hb => by
      change Spec IsOverflow (stabilityCmp .debug a b) (fun o => ∃ r, o = some r ∧
        (a.val ≠ 0 → b.val = 0 → r = .gt) ∧ (a.val = 0 → b.val ≠ 0 → r ≠ .gt))
      have ha' := wf_val_zero (x := a) ha
      have hb' := wf_val_zero (x := b) hb
      unfold stabilityCmp
      split
      · rename_i h
        exact ⟨.lt, rfl, fun hh => absurd (ha'.mpr h) hh, fun _ _ => by decide⟩
      · split
        · rename_i h1 h
          exact ⟨.gt, rfl, fun _ _ => rfl, fun _ hh => absurd (hb'.mpr h) hh⟩
        · rename_i h1 h2
          refine (Integer.abs_spec _).bind fun _ _ => ?_
          refine (Integer.abs_spec _).bind fun _ _ => ?_
          refine (Integer.add_spec _ _).bind fun _ _ => ?_
          refine (Integer.abs_spec _).bind fun _ _ => ?_
          refine (Integer.abs_spec _).bind fun _ _ => ?_
          refine (Integer.add_spec _ _).bind fun _ _ => ?_
          exact ⟨_, rfl, fun _ hh => absurd (hb'.mp hh) h2, fun hh => absurd (ha'.mp hh) h1⟩ }

end Rational

/-- An exact field is lawful, and never panics. -/
@[reducible] def exactLawful (K : Type) [Field K] [DecidableEq K] :
    @LawfulRField K (exactField .debug K) K _ :=
  letI := exactField .debug K
  { wf := fun _ => True
    val := id
    allowed := fun _ => False
    build_debug := rfl
    wf_zero := trivial
    val_zero := rfl
    wf_one := trivial
    val_one := rfl
    val_eq_of_beq := fun a b h => by simpa [RField.beq] using h
    beq_zero := fun a _ h => by
      have : a = 0 := h
      simp [RField.beq, this, RField.zero]
    add_spec := fun a b _ _ => ⟨trivial, rfl⟩
    sub_spec := fun a b _ _ => ⟨trivial, rfl⟩
    neg_spec := fun a _ => ⟨trivial, rfl⟩
    mul_spec := fun a b _ _ => ⟨trivial, rfl⟩
    div_spec := fun a b _ _ h => by
      have h : b ≠ 0 := h
      simp [RField.div, h]
    inv_spec := fun a _ h => by
      have h : a ≠ 0 := h
      simp [RField.inv, h]
    pow_spec := fun a n _ _ => ⟨trivial, by simp⟩
    sum_spec := fun E _ l vs h => by
      have key : ∀ c : K, Spec E (l.foldlM (fun acc y => do let y ← y; Res.ok (acc + y)) c)
          (fun z => z = c + vs.sum) := by
        induction h with
        | nil => intro c; simp
        | @cons r v l vs hr h ih =>
          intro c
          rw [List.foldlM_cons]
          refine Spec.bind (P := fun z => z = c + v) (hr.bind fun y hy => ?_) ?_
          · have : y = v := hy.2
            rw [this]; rfl
          · rintro d rfl
            refine (ih _).imp fun z hz => by rw [hz, List.sum_cons, add_assoc]
      exact (key 0).imp fun z hz => ⟨trivial, by rw [hz, zero_add]; rfl⟩
    sum_strict := fun _ _ h => foldlM_strict h }

end Verif
