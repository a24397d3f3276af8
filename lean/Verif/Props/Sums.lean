import Verif.Props.Num

/-!
# Sums of rationals grow (C151)

`Rational::add` does not reduce, so the denominator of a sum is the product of all denominators.
A sum whose value is a small fraction may therefore overflow; these theorems say exactly when a sum
of positive rationals does, and give a sufficient condition for any signs.
-/

namespace Verif
open Res
namespace Rational

/-- The product of the denominators. -/
def denoms (l : List Rational) : ℤ := (l.map (·.denom)).prod

/-- The sum of the absolute values. -/
def absSum (l : List Rational) : ℚ := (l.map fun x => |x.val|).sum

theorem denoms_pos {l : List Rational} (h : ∀ x ∈ l, 0 < x.denom) : 0 < denoms l := by
  induction l with
  | nil => simp [denoms]
  | cons x l ih =>
    have := mul_pos (h x (by simp)) (ih fun y hy => h y (by simp [hy]))
    simpa [denoms] using this

theorem absSum_nonneg (l : List Rational) : 0 ≤ absSum l :=
  List.sum_nonneg fun d hd => by
    obtain ⟨x, _, rfl⟩ := List.mem_map.mp hd
    exact abs_nonneg _

theorem abs_numer {x : Rational} (h : 0 < x.denom) : ((|x.numer| : ℤ) : ℚ) = |x.val| * x.denom := by
  have h' : (0 : ℚ) < x.denom := by exact_mod_cast h
  unfold val
  rw [abs_div, abs_of_pos h', div_mul_cancel₀ _ h'.ne', Int.cast_abs]

theorem inRange_abs {x : ℤ} (h : |x| ≤ 9223372036854775807) : I64.InRange x := by
  rw [abs_le] at h
  unfold I64.InRange; omega

/-- One addition, when the numbers fit. -/
theorem add_fits (b : Build) {x y : Rational} (hx : 0 < x.denom) (hy : 0 < y.denom)
    (hn : |x.numer| * y.denom + |y.numer| * x.denom ≤ 9223372036854775807)
    (hd : x.denom * y.denom ≤ 9223372036854775807) :
    add b x y = .ok (if x.numer * y.denom + y.numer * x.denom = 0 then ZERO
      else ⟨x.numer * y.denom + y.numer * x.denom, x.denom * y.denom⟩) := by
  have h1 : |x.numer * y.denom| = |x.numer| * y.denom := by rw [abs_mul, abs_of_pos hy]
  have h2 : |y.numer * x.denom| = |y.numer| * x.denom := by rw [abs_mul, abs_of_pos hx]
  have h3 := abs_nonneg (x.numer * y.denom)
  have h4 := abs_nonneg (y.numer * x.denom)
  have h5 := abs_add_le (x.numer * y.denom) (y.numer * x.denom)
  have h6 : 0 < x.denom * y.denom := mul_pos hx hy
  unfold add Integer.mul Integer.add Integer.isZero
  rw [I64.norm_eq (inRange_abs (by omega)), bind_ok, I64.norm_eq (inRange_abs (by omega)), bind_ok,
    I64.norm_eq (inRange_abs (by omega)), bind_ok, I64.norm_eq (inRange_abs (by rw [abs_of_pos h6]; exact hd)),
    bind_ok]
  by_cases h0 : x.numer * y.denom + y.numer * x.denom = 0
  · rw [if_pos h0, if_pos (by simpa using h0)]; rfl
  · rw [if_neg h0, if_neg (by simpa using h0)]; rfl

/-- The invariant of the loop in `sum`: at most the unreduced fraction so far. -/
structure Below (x : Rational) (s : ℚ) (d : ℤ) : Prop where
  pos : 0 < x.denom
  dvd : x.denom ∣ d
  numer : ((|x.numer| : ℤ) : ℚ) ≤ s * d

theorem sumLoop_fits (b : Build) (l : List Rational) (x : Rational) (s : ℚ) (d : ℤ)
    (hl : ∀ y ∈ l, 0 < y.denom) (h : x.Below s d) (hs0 : 0 ≤ s) (hd0 : 0 < d)
    (hd : d * denoms l ≤ 9223372036854775807)
    (hs : (s + absSum l) * ((d * denoms l : ℤ) : ℚ) ≤ 9223372036854775807) :
    ∃ z, (l.map Res.ok).foldlM (fun acc y => do let y ← y; add b acc y) x = .ok z ∧
      0 < z.denom ∧ z.denom ∣ d * denoms l ∧ z.val = x.val + (l.map (·.val)).sum := by
  induction l generalizing x s d with
  | nil => exact ⟨x, rfl, h.pos, by simpa [denoms] using h.dvd, by simp⟩
  | cons y l ih =>
    have hy : 0 < y.denom := hl y (by simp)
    have hl' : ∀ z ∈ l, 0 < z.denom := fun z hz => hl z (by simp [hz])
    have hD : 0 < denoms l := denoms_pos hl'
    have hS := absSum_nonneg l
    have ed : denoms (y :: l) = y.denom * denoms l := by simp [denoms]
    have es : absSum (y :: l) = |y.val| + absSum l := by simp [absSum]
    rw [ed, ← mul_assoc] at hd hs
    rw [es, ← add_assoc] at hs
    have hdy : 0 < d * y.denom := mul_pos hd0 hy
    have hxd : x.denom ≤ d := Int.le_of_dvd hd0 h.dvd
    have hyq : (0 : ℚ) < y.denom := by exact_mod_cast hy
    have hdq : (0 : ℚ) < d := by exact_mod_cast hd0
    have hxq : (x.denom : ℚ) ≤ d := by exact_mod_cast hxd
    have hDq : (1 : ℚ) ≤ denoms l := by exact_mod_cast hD
    -- the numerator of the next partial sum
    have hnum : ((|x.numer| * y.denom + |y.numer| * x.denom : ℤ) : ℚ) ≤
        (s + |y.val|) * ((d * y.denom : ℤ) : ℚ) := by
      push_cast
      have e := abs_numer hy
      push_cast at e
      rw [e]
      have h1 : |(x.numer : ℚ)| * y.denom ≤ s * d * y.denom := by
        have := h.numer
        push_cast at this
        exact mul_le_mul_of_nonneg_right this hyq.le
      have h2 : |y.val| * y.denom * x.denom ≤ |y.val| * y.denom * d :=
        mul_le_mul_of_nonneg_left hxq (mul_nonneg (abs_nonneg _) hyq.le)
      nlinarith [h1, h2]
    have hsy : (0 : ℚ) ≤ s + |y.val| := add_nonneg hs0 (abs_nonneg _)
    have hle : (s + |y.val|) * ((d * y.denom : ℤ) : ℚ) ≤ 9223372036854775807 := by
      refine le_trans ?_ hs
      have hdyq : (0 : ℚ) < ((d * y.denom : ℤ) : ℚ) := by exact_mod_cast hdy
      rw [Int.cast_mul (d * y.denom)]
      calc (s + |y.val|) * ((d * y.denom : ℤ) : ℚ)
          ≤ (s + |y.val| + absSum l) * ((d * y.denom : ℤ) : ℚ) :=
            mul_le_mul_of_nonneg_right (by linarith) hdyq.le
        _ = (s + |y.val| + absSum l) * (((d * y.denom : ℤ) : ℚ) * 1) := by rw [mul_one]
        _ ≤ _ := mul_le_mul_of_nonneg_left (mul_le_mul_of_nonneg_left hDq hdyq.le) (by linarith)
    have hden : x.denom * y.denom ≤ 9223372036854775807 := by
      have h1 : x.denom * y.denom ≤ d * y.denom := mul_le_mul_of_nonneg_right hxd hy.le
      have h2 : d * y.denom * 1 ≤ d * y.denom * denoms l := mul_le_mul_of_nonneg_left hD hdy.le
      omega
    have hadd := add_fits b h.pos hy (by exact_mod_cast hnum.trans hle) hden
    have hexact : ((x.numer * y.denom + y.numer * x.denom : ℤ) : ℚ) =
        (x.val + y.val) * (x.denom * y.denom) := by
      have hxp : (x.denom : ℚ) ≠ 0 := by have := h.pos; positivity
      unfold val
      push_cast
      field_simp
    rw [List.map_cons, List.foldlM_cons, bind_ok, hadd, bind_ok, ed, ← mul_assoc, List.map_cons,
      List.sum_cons, ← add_assoc]
    split
    · rename_i h0
      have hv : x.val + y.val = 0 := by
        rw [h0, Int.cast_zero] at hexact
        have hxp : (0 : ℚ) < x.denom := by exact_mod_cast h.pos
        rcases mul_eq_zero.mp hexact.symm with h | h
        · exact h
        · exact absurd h (mul_pos hxp hyq).ne'
      have := ih ZERO (s + |y.val|) (d * y.denom) hl'
        ⟨by decide, by simp [ZERO], by
          have : ((|(0 : ℤ)| : ℤ) : ℚ) = 0 := by simp
          rw [show (ZERO).numer = 0 from rfl, this]
          exact mul_nonneg hsy (by exact_mod_cast hdy.le)⟩ hsy hdy hd hs
      rwa [val_ZERO, ← hv] at this
    · have hz : (⟨x.numer * y.denom + y.numer * x.denom, x.denom * y.denom⟩ : Rational).val =
          x.val + y.val := by
        change ((x.numer * y.denom + y.numer * x.denom : ℤ) : ℚ) / ((x.denom * y.denom : ℤ) : ℚ) = _
        have hxp : (0 : ℚ) < x.denom := by exact_mod_cast h.pos
        rw [hexact]
        push_cast
        exact mul_div_cancel_right₀ _ (mul_pos hxp hyq).ne'
      have := ih ⟨x.numer * y.denom + y.numer * x.denom, x.denom * y.denom⟩ (s + |y.val|)
        (d * y.denom) hl' ⟨mul_pos h.pos hy, mul_dvd_mul_right h.dvd _, by
          refine le_trans ?_ hnum
          have : |x.numer * y.denom + y.numer * x.denom| ≤ |x.numer| * y.denom + |y.numer| * x.denom := by
            refine (abs_add_le _ _).trans_eq ?_
            rw [abs_mul, abs_mul, abs_of_pos hy, abs_of_pos h.pos]
          exact_mod_cast this⟩ hsy hdy hd hs
      rwa [hz] at this

/-- **C151** (any signs) A sum of rationals whose denominators have product `D` returns its exact
value, in either build, if `D` and `D` times the sum of the absolute values are below `2 ^ 63`. -/
theorem C151_returns (b : Build) (l : List Rational) (hl : ∀ x ∈ l, 0 < x.denom)
    (hd : denoms l ≤ 9223372036854775807)
    (hs : absSum l * ((denoms l : ℤ) : ℚ) ≤ 9223372036854775807) :
    ∃ z, sum b (l.map .ok) = .ok z ∧ 0 < z.denom ∧ z.denom ∣ denoms l ∧
      z.val = (l.map (·.val)).sum := by
  cases l with
  | nil => exact ⟨ZERO, rfl, by decide, by simp [ZERO, denoms], by simp [val_ZERO]⟩
  | cons x l =>
    have hx : 0 < x.denom := hl x (by simp)
    have ed : denoms (x :: l) = x.denom * denoms l := by simp [denoms]
    have es : absSum (x :: l) = |x.val| + absSum l := by simp [absSum]
    rw [ed] at hd hs ⊢
    rw [es] at hs
    have := sumLoop_fits b l x |x.val| x.denom (fun y hy => hl y (by simp [hy]))
      ⟨hx, dvd_rfl, (abs_numer hx).le⟩ (abs_nonneg _) hx hd hs
    rwa [List.map_cons, List.map_cons, List.sum_cons]

/-- The loop in `sum`, on positive rationals: nothing is ever reduced. -/
theorem sumLoop_positive (l : List Rational) (x z : Rational) (hl : ∀ y ∈ l, 0 < y.numer ∧ 0 < y.denom)
    (hx : 0 < x.numer ∧ 0 < x.denom) (hr : I64.InRange x.numer ∧ I64.InRange x.denom)
    (h : (l.map Res.ok).foldlM (fun acc y => do let y ← y; add .debug acc y) x = .ok z) :
    z.denom = x.denom * denoms l ∧ I64.InRange z.numer ∧ I64.InRange z.denom := by
  induction l generalizing x with
  | nil =>
    cases h
    exact ⟨by simp [denoms], hr⟩
  | cons y l ih =>
    obtain ⟨hy, hy'⟩ := hl y (by simp)
    rw [List.map_cons, List.foldlM_cons, bind_ok] at h
    obtain ⟨w, hw, h⟩ := bind_eq_ok.mp h
    have hpos : 0 < x.numer * y.denom + y.numer * x.denom :=
      add_pos (mul_pos hx.1 hy') (mul_pos hy hx.2)
    unfold add Integer.mul Integer.add Integer.isZero at hw
    obtain ⟨p, hp, hw⟩ := bind_eq_ok.mp hw
    obtain ⟨q, hq, hw⟩ := bind_eq_ok.mp hw
    obtain ⟨s, hs, hw⟩ := bind_eq_ok.mp hw
    obtain ⟨rfl, _⟩ := (I64.norm_spec _).of_ok hp
    obtain ⟨rfl, _⟩ := (I64.norm_spec _).of_ok hq
    obtain ⟨rfl, hsr⟩ := (I64.norm_spec _).of_ok hs
    rw [if_neg (by simpa using hpos.ne')] at hw
    obtain ⟨d, hd, hw⟩ := bind_eq_ok.mp hw
    obtain ⟨rfl, hdr⟩ := (I64.norm_spec _).of_ok hd
    cases hw
    obtain ⟨h1, h2⟩ := ih _ (fun w hw => hl w (by simp [hw])) ⟨hpos, mul_pos hx.2 hy'⟩ ⟨hsr, hdr⟩ h
    refine ⟨?_, h2⟩
    rw [h1]
    simp [denoms, newUnchecked, mul_assoc]

/-- **C151** (positive summands) A sum of positive rationals returns in an overflow-checked build
exactly if the product `D` of all the denominators and `D` times the value are below `2 ^ 63`,
however small the reduced fraction is; its denominator is then `D`. -/
theorem C151_positive (l : List Rational) (hne : l ≠ [])
    (hl : ∀ x ∈ l, (0 < x.numer ∧ 0 < x.denom) ∧ I64.InRange x.numer ∧ I64.InRange x.denom) (z : Rational) :
    sum .debug (l.map .ok) = .ok z ↔
      denoms l ≤ 9223372036854775807 ∧
      (l.map (·.val)).sum * ((denoms l : ℤ) : ℚ) ≤ 9223372036854775807 ∧
      z.denom = denoms l ∧ z.val = (l.map (·.val)).sum := by
  have habs : absSum l = (l.map (·.val)).sum := by
    unfold absSum
    congr 1
    refine List.map_congr_left fun x hx => abs_of_pos ?_
    unfold val
    have h1 : (0 : ℚ) < x.numer := by exact_mod_cast (hl x hx).1.1
    have h2 : (0 : ℚ) < x.denom := by exact_mod_cast (hl x hx).1.2
    exact div_pos h1 h2
  have hden : ∀ x ∈ l, 0 < x.denom := fun x hx => (hl x hx).1.2
  have key : ∀ w, sum .debug (l.map .ok) = .ok w →
      w.denom = denoms l ∧ I64.InRange w.numer ∧ I64.InRange w.denom := by
    intro w hw
    obtain ⟨x, xs, rfl⟩ := List.exists_cons_of_ne_nil hne
    have := sumLoop_positive xs x w (fun y hy => (hl y (by simp [hy])).1) (hl x (by simp)).1
      (hl x (by simp)).2 hw
    simpa [denoms] using this
  have hD := denoms_pos hden
  constructor
  · intro hz
    obtain ⟨h1, h2, h3⟩ := key z hz
    have hv : z.val = (l.map (·.val)).sum := by
      have hwf : ∀ x ∈ l, x.WF := fun x hx => ⟨hden x hx, fun h => absurd h (hl x hx).1.1.ne'⟩
      exact ((C05_sum l hwf).1.of_ok hz).2
    refine ⟨by rw [← h1]; exact h3.2, ?_, h1, hv⟩
    have hzd : (z.denom : ℚ) ≠ 0 := by rw [h1]; exact_mod_cast hD.ne'
    rw [← hv, ← h1]
    unfold val
    rw [div_mul_cancel₀ _ hzd]
    exact_mod_cast h2.2
  · rintro ⟨h1, h2, h3, h4⟩
    obtain ⟨w, hw, _, _, hwv⟩ := C151_returns .debug l hden h1 (by rw [habs]; exact h2)
    obtain ⟨h5, _, _⟩ := key w hw
    have hwz : w = z := by
      have hDq : ((denoms l : ℤ) : ℚ) ≠ 0 := by exact_mod_cast hD.ne'
      have e : (w.numer : ℚ) = z.numer := by
        have : w.val = z.val := hwv.trans h4.symm
        unfold val at this
        rw [h5, h3] at this
        exact (div_left_inj' hDq).mp this
      rcases w with ⟨wn, wd⟩
      rcases z with ⟨zn, zd⟩
      simp only at e h5 h3
      rw [h5, h3]
      congr 1
      exact_mod_cast e
    rw [hw, hwz]

/-- **C151** The conditions are needed: the sum of fifty-nine halves is `59/2`, but `sum`
overflows; without overflow checks it returns another number. -/
theorem C151_overflow :
    (((List.replicate 59 (⟨1, 2⟩ : Rational)).map (·.val)).sum = (⟨59, 2⟩ : Rational).val) ∧
    new .debug 59 2 = .ok ⟨59, 2⟩ ∧
    sum .debug ((List.replicate 59 (⟨1, 2⟩ : Rational)).map .ok) = .panic .overflowI64 ∧
    ∃ z, sum .release ((List.replicate 59 (⟨1, 2⟩ : Rational)).map .ok) = .ok z ∧
      z.val ≠ (⟨59, 2⟩ : Rational).val := by
  refine ⟨?_, by decide, by decide +kernel, ⟨59 * 2 ^ 58 - 2 ^ 64, 2 ^ 59⟩, by decide +kernel, ?_⟩
  · rw [List.map_replicate, List.sum_replicate]
    simp only [val, nsmul_eq_mul]; norm_num
  · simp only [val]; norm_num

/-- C151: fifty-eight halves meet the conditions, and the result is not reduced. -/
example : sum .debug ((List.replicate 58 (⟨1, 2⟩ : Rational)).map .ok) =
    .ok ⟨58 * 2 ^ 57, 2 ^ 58⟩ := by decide +kernel

example : sum .debug ([⟨1, 2⟩, ⟨1, 3⟩, ⟨-1, 2⟩].map .ok) = .ok ⟨4, 12⟩ := by decide

end Rational
end Verif
