import Verif.Props.FormError

/-!
# Elimination over floats returns when the entries are moderate (C231)

`lu` and `row_echelon` panic over `f32` and `f64` where an entry overflows (C93).  The pivot is the entry of greatest absolute
value in its column, so that the entries still to be eliminated grow at most by the factor `9/4` in a step, and it is at
least `EPSILON`, so that scaling a row by its inverse makes the entries at most `2^(sig + 1)` times as large.  If the numbers
that are possible according to these bounds are finite, then both routines return finite entries.
-/

namespace Verif
open Res LinAlg
namespace Flt
open Fmt
variable [Fmt]

theorem roundoff_le_hundredth : roundoff ≤ 1 / 100 := by
  unfold roundoff
  rcases sig_cases with h | h <;> rw [h] <;> norm_num

theorem tiny_le_hundredth : tiny ≤ 1 / 100 := by
  unfold tiny
  refine one_div_le_one_div_of_le (by norm_num) ?_
  have : (2 : ℚ) ^ 7 ≤ 2 ^ (unitExp + 1) := pow_le_pow_right₀ (by norm_num) (by cases ‹Fmt› <;> decide)
  linarith

theorem sig_bound : (4 : ℚ) ≤ 2 ^ (sig + 1) := by
  rcases sig_cases with h | h <;> rw [h] <;> norm_num

/-- An entry of the pivot row after scaling. -/
theorem scale_bound {v w : Flt} {β : ℚ} (hv : v.Valid) (hvf : v.value ≠ none) (hwf : w.value ≠ none)
    (hβ : 1 ≤ β) (hε : 1 / 2 ^ sig ≤ |v.val|) (hw : |w.val| ≤ β) (hh : 2 ^ (sig + 1) * β < huge) :
    (mul (div one v) w).value ≠ none ∧ |v.val * (mul (div one v) w).val| ≤ 10 / 9 * β ∧
      |(mul (div one v) w).val| ≤ 2 ^ (sig + 1) * β := by
  have hve := value_val hvf
  have hwe := value_val hwf
  have hlt := val_lt hv
  have hu := roundoff_le_hundredth
  have hu0 := roundoff_pos
  have ht0 := tiny_pos
  have hp : (0 : ℚ) < 2 ^ sig := by positivity
  have ha : 0 < |v.val| := lt_of_lt_of_le (by positivity) hε
  have ha0 : v.val ≠ 0 := abs_pos.mp ha
  have hinv : |1 / v.val| ≤ 2 ^ sig := by
    rw [abs_div, abs_one]
    rwa [div_le_iff₀ ha, ← div_le_iff₀' hp]
  have hps : (2 : ℚ) ^ (sig + 1) = 2 * 2 ^ sig := by rw [pow_succ]; ring
  obtain ⟨ρ, hρ⟩ := div_finite_of value_one hve ha0 (lt_of_le_of_lt hinv (by
    refine lt_of_le_of_lt ?_ hh
    rw [hps]
    nlinarith))
  obtain ⟨-, hdiv⟩ := div_error value_one hve hρ
  have h1 : |v.val * ρ - 1| ≤ 5 * roundoff := by
    have e : v.val * ρ - 1 = v.val * (ρ - 1 / v.val) := by field_simp
    rw [e, abs_mul]
    calc |v.val| * |ρ - 1 / v.val| ≤ |v.val| * (roundoff * |1 / v.val| + tiny) :=
          mul_le_mul_of_nonneg_left hdiv ha.le
      _ = roundoff * (|v.val| * |1 / v.val|) + tiny * |v.val| := by ring
      _ = roundoff + tiny * |v.val| := by rw [← abs_mul, mul_one_div_cancel ha0, abs_one, mul_one]
      _ ≤ 5 * roundoff := by linarith
  have h2 : |v.val * ρ| ≤ 21 / 20 := by
    have := abs_sub_abs_le_abs_sub (v.val * ρ) 1
    rw [abs_one] at this
    linarith
  have h3 : |v.val| * |ρ * w.val| ≤ 21 / 20 * β := by
    rw [← abs_mul, ← mul_assoc, abs_mul]
    exact mul_le_mul h2 hw (abs_nonneg _) (by norm_num)
  have up : ∀ {x y : ℚ}, 0 ≤ x → |v.val| * x ≤ y → x ≤ 2 ^ sig * y := by
    intro x y hx h
    have h5 : 1 / 2 ^ sig * x ≤ y := (mul_le_mul_of_nonneg_right hε hx).trans h
    have h6 : 2 ^ sig * (1 / 2 ^ sig * x) ≤ 2 ^ sig * y := mul_le_mul_of_nonneg_left h5 hp.le
    rwa [← mul_assoc, mul_one_div_cancel hp.ne', one_mul] at h6
  obtain ⟨y, hy⟩ := mul_finite_of hρ hwe (lt_of_le_of_lt (up (abs_nonneg _) h3) (by
    refine lt_of_le_of_lt ?_ hh
    rw [hps]
    nlinarith))
  have hmul := mul_error hρ hwe hy
  have h4 : |v.val| * |y| ≤ 10 / 9 * β := by
    have h5 : |y| ≤ (1 + roundoff) * |ρ * w.val| + tiny := by
      have := abs_sub_abs_le_abs_sub y (ρ * w.val)
      linarith
    calc |v.val| * |y| ≤ |v.val| * ((1 + roundoff) * |ρ * w.val| + tiny) :=
          mul_le_mul_of_nonneg_left h5 ha.le
      _ = (1 + roundoff) * (|v.val| * |ρ * w.val|) + tiny * |v.val| := by ring
      _ ≤ (1 + 1 / 100) * (21 / 20 * β) + 4 * roundoff := by
          refine add_le_add (mul_le_mul (by linarith) h3 (by positivity) (by norm_num)) hlt
      _ ≤ 10 / 9 * β := by linarith
  refine ⟨by rw [hy]; simp, ?_, ?_⟩
  · rw [val_eq hy, abs_mul]; exact h4
  · rw [val_eq hy, hps]
    refine (up (abs_nonneg _) h4).trans ?_
    nlinarith

/-- An entry below the pivot row after the step. -/
theorem update_bound {v x y s : Flt} {β : ℚ} (hsv : s.Valid) (hxf : x.value ≠ none) (hyf : y.value ≠ none)
    (hsf : s.value ≠ none) (hβ : 1 ≤ β) (hx : |x.val| ≤ β) (hy : |v.val * y.val| ≤ 10 / 9 * β) (hs : |s.val| ≤ |v.val|)
    (hsβ : |s.val| ≤ β) (hh : 2 ^ (sig + 1) * β < huge) :
    (add x (mul y (sub zero s))).value ≠ none ∧ |(add x (mul y (sub zero s))).val| ≤ 9 / 4 * β := by
  have hu := roundoff_le_hundredth
  have ht := tiny_le_hundredth
  have hu0 := roundoff_pos
  have ht0 := tiny_pos
  have h4 := sig_bound
  have hβh : 4 * β < huge := lt_of_le_of_lt (mul_le_mul_of_nonneg_right h4 (by linarith)) hh
  have hxe := value_val hxf
  have hye := value_val hyf
  have hse := value_val hsf
  have hne : (neg s).value = some (-s.val) := by rw [value_neg, hse]; rfl
  obtain ⟨c, hc⟩ := add_finite_of value_zero hne (by rw [zero_add, abs_neg]; linarith)
  have hc' : (sub zero s).value = some c := hc
  have hcv := (sub_zero_val hsv (by rw [hc']; simp)).2
  rw [val_eq hc'] at hcv
  have hys : |y.val * c| ≤ 10 / 9 * β := by
    rw [hcv, mul_neg, abs_neg, abs_mul]
    refine (mul_le_mul_of_nonneg_left hs (abs_nonneg _)).trans ?_
    rw [mul_comm, ← abs_mul]
    exact hy
  obtain ⟨z, hz⟩ := mul_finite_of hye hc' (lt_of_le_of_lt hys (by linarith))
  have hzb : |z| ≤ 114 / 100 * β := by
    have h1 := mul_error hye hc' hz
    have h2 := abs_sub_abs_le_abs_sub z (y.val * c)
    have h3 : roundoff * |y.val * c| ≤ 1 / 100 * (10 / 9 * β) := mul_le_mul hu hys (abs_nonneg _) (by norm_num)
    linarith
  have hsum : |x.val + z| ≤ 214 / 100 * β := (abs_add_le _ _).trans (by linarith)
  obtain ⟨a, ha⟩ := add_finite_of hxe hz (lt_of_le_of_lt hsum (by linarith))
  refine ⟨by rw [ha]; simp, ?_⟩
  rw [val_eq ha]
  have h1 := add_error hxe hz ha
  have h2 := abs_sub_abs_le_abs_sub a (x.val + z)
  have h3 : roundoff * |x.val + z| ≤ 1 / 100 * (214 / 100 * β) := mul_le_mul hu hsum (abs_nonneg _) (by norm_num)
  linarith

theorem val_mag {x : Flt} (h : x.value ≠ none) : ∃ k : ℕ, x.mag = k ∧ |x.val| = k / unit := by
  cases x with
  | nan => exact absurd rfl h
  | inf _ => exact absurd rfl h
  | fin s k => exact ⟨k, rfl, by rw [val_eq rfl, abs_div, abs_units, abs_of_pos unit_posQ]⟩

theorem abs_val_le_of_mag {x y : Flt} (hx : x.value ≠ none) (hy : y.value ≠ none) (h : x.mag ≤ y.mag) :
    |x.val| ≤ |y.val| := by
  obtain ⟨k, hk, hkv⟩ := val_mag hx
  obtain ⟨l, hl, hlv⟩ := val_mag hy
  rw [hk, hl] at h
  rw [hkv, hlv]
  exact div_le_div_of_nonneg_right (by exact_mod_cast h) unit_posQ.le

theorem eps_le_val {x : Flt} (hx : x.value ≠ none) (h : (epsUnits : WithTop ℕ) ≤ x.mag) : 1 / 2 ^ sig ≤ |x.val| := by
  obtain ⟨k, hk, hkv⟩ := val_mag hx
  rw [hk] at h
  have h1 : epsUnits ≤ k := by exact_mod_cast h
  have h2 : epsUnits * 2 ^ sig = unit := by cases ‹Fmt› <;> decide +kernel
  rw [hkv, div_le_div_iff₀ (by positivity) unit_posQ, one_mul, ← h2]
  push_cast
  exact mul_le_mul_of_nonneg_right (by exact_mod_cast h1) (by positivity)

theorem ne_nan {x : Flt} (h : x.value ≠ none) : x ≠ nan := by rintro rfl; exact h rfl

/-- The entries when the first `r` rows are done. -/
structure Grow (n m r : ℕ) (B : ℚ) (w : ℕ → ℕ → Flt) : Prop where
  valid : ∀ i j, i < n → j < m → (w i j).Valid
  todo : ∀ i j, r ≤ i → i < n → j < m → (w i j).value ≠ none ∧ |(w i j).val| ≤ (9 / 4) ^ r * B
  done : ∀ i j, i < r → i < n → j < m → (w i j).value ≠ none ∧ |(w i j).val| ≤ 2 ^ (sig + 1) * ((9 / 4) ^ i * B)

theorem Grow.swap {n m r s : ℕ} {B : ℚ} {w : ℕ → ℕ → Flt} (h : Grow n m r B w) (hr : r < n) (hs : r ≤ s) (hsn : s < n) :
    Grow n m r B (fun i j => w (Equiv.swap r s i) j) where
  valid i j hi hj := h.valid _ _ (swap_lt hr hsn hi) hj
  todo i j hir hi hj := by
    have hge : r ≤ Equiv.swap r s i := by rw [Equiv.swap_apply_def]; split_ifs <;> omega
    exact h.todo _ j hge (swap_lt hr hsn hi) hj
  done i j hir hi hj := by
    simp only [swap_of_lt hs hir]
    exact h.done i j hir hi hj

omit [Fmt] in
theorem growth_pos {B : ℚ} (hB : 1 ≤ B) (r : ℕ) : 1 ≤ (9 / 4 : ℚ) ^ r * B :=
  one_le_mul_of_one_le_of_one_le (one_le_pow₀ (by norm_num)) hB

/-- What the pivot is known to satisfy. -/
structure PivotOk (n r c : ℕ) (w : ℕ → ℕ → Flt) : Prop where
  eps : 1 / 2 ^ sig ≤ |(w r c).val|
  max : ∀ i, r ≤ i → i < n → |(w i c).val| ≤ |(w r c).val|

theorem Grow.scaled {n m r c : ℕ} {B : ℚ} {w : ℕ → ℕ → Flt} (h : Grow n m r B w) (hr : r < n) (hc : c < m) (hB : 1 ≤ B)
    (hh : 2 ^ (sig + 1) * ((9 / 4) ^ r * B) < huge) (hp : PivotOk n r c w) {j : ℕ} (hj : j < m) :
    (mul (div one (w r c)) (w r j)).value ≠ none ∧
    |(w r c).val * (mul (div one (w r c)) (w r j)).val| ≤ 10 / 9 * ((9 / 4) ^ r * B) ∧
    |(mul (div one (w r c)) (w r j)).val| ≤ 2 ^ (sig + 1) * ((9 / 4) ^ r * B) :=
  scale_bound (h.valid r c hr hc) (h.todo r c le_rfl hr hc).1 (h.todo r j le_rfl hr hj).1 (growth_pos hB r) hp.eps
    (h.todo r j le_rfl hr hj).2 hh

theorem Grow.step {n m r c : ℕ} {B : ℚ} {w : ℕ → ℕ → Flt} (h : Grow n m r B w) (hr : r < n) (hc : c < m) (hB : 1 ≤ B)
    (hh : 2 ^ (sig + 1) * ((9 / 4) ^ r * B) < huge) (hp : PivotOk n r c w) :
    Grow n m (r + 1) B (stepU r c (w r c) w) where
  valid := valid_stepU h.valid
  todo i j hir hi hj := by
    have hs := h.scaled hr hc hB hh hp hj
    have hi0 := h.todo i c (by omega) hi hc
    have hu := update_bound (v := w r c) (h.valid i c hi hc) (h.todo i j (by omega) hi hj).1 hs.1
      hi0.1 (growth_pos hB r) (h.todo i j (by omega) hi hj).2 hs.2.1 (hp.max i (by omega) hi) hi0.2 hh
    unfold stepU
    rw [if_neg (by omega), if_pos (by omega), pow_succ, mul_comm ((9 / 4 : ℚ) ^ r), mul_assoc]
    exact hu
  done i j hir hi hj := by
    unfold stepU
    by_cases hi' : i = r
    · subst hi'
      rw [if_pos rfl]
      exact ⟨(h.scaled hr hc hB hh hp hj).1, (h.scaled hr hc hB hh hp hj).2.2⟩
    · rw [if_neg hi', if_neg (by omega)]
      exact h.done i j (by omega) hi hj

/-- The pivot search on finite entries. -/
theorem Grow.pivot (b : Build) (powi : Flt → ℤ → Flt) {M : Mat Flt} {n m m' r c : ℕ} {B : ℚ} {w : ℕ → ℕ → Flt}
    (h : Grow n m' r B w) (hr : r < n) (hc : c < m) (hm : m ≤ m') :
    letI := field b powi
    M.Has n m w → M.getStable c r = .ok none ∨
      ∃ s, M.getStable c r = .ok (some (s, w s c)) ∧ r ≤ s ∧ s < n ∧ epsilonEquals (w s c) zero = false ∧
        PivotOk n r c (fun i j => w (Equiv.swap r s i) j) := by
  let _ := field b powi
  have := tame b powi
  intro hM
  have hnan : ¬ (r + 2 ≤ n ∧ ∃ i, r ≤ i ∧ i < n ∧ w i c = nan) := by
    rintro ⟨-, i, hi, hin, he⟩
    exact ne_nan (h.todo i c hi hin (by omega)).1 he
  rcases (C91_pivot b powi M n m c r w hM (fun i j hi hj => h.valid i j hi (by omega)) hc hr).2 hnan with
    h1 | ⟨s, h1, hs, hsn, h2, h3, -⟩
  · exact .inl h1.1
  · have hst := hM.getStable (E := (· = .unwrapNone)) hc hr
    rw [h1] at hst
    obtain ⟨_, _, _, hne⟩ := hst
    have hf := (h.todo s c hs hsn (by omega)).1
    refine .inr ⟨s, h1, hs, hsn, Res.ok.inj hne, ?_, fun i hi hin => ?_⟩
    · simp only [Equiv.swap_apply_left]
      exact eps_le_val hf (h2.resolve_left (ne_nan hf))
    · simp only [Equiv.swap_apply_left]
      have hge : r ≤ Equiv.swap r s i := by rw [Equiv.swap_apply_def]; split_ifs <;> omega
      have hlt := swap_lt hr hsn hin
      exact abs_val_le_of_mag (h.todo _ c hge hlt (by omega)).1 hf (h3 _ hge hlt)

/-! ### `row_echelon` -/

theorem rowEchelonFor_grow (b : Build) (powi : Flt → Int → Flt) {n m : ℕ} {B : ℚ} (hB : 1 ≤ B)
    (hh : ∀ r, r < n → r < m → 2 ^ (sig + 1) * ((9 / 4) ^ r * B) < huge)
    (k c r : ℕ) {f : Form Flt} {w : ℕ → ℕ → Flt} (hcl : c + k ≤ m) (hrn : r ≤ n) (hrc : r ≤ c)
    (hg : Grow n (m + n) r B w) :
    letI := field b powi
    FormHas f n m w → Spec (fun _ => False) (Mat.rowEchelonFor n (List.range' c k) r f)
      (fun f' => ∃ w' r', r' ≤ n ∧ r' ≤ m ∧ FormHas f' n m w' ∧ Grow n (m + n) r' B w') := by
  let _ := field b powi
  induction k generalizing c f w r with
  | zero => intro h; exact ⟨w, r, hrn, by omega, h, hg⟩
  | succ k ih =>
    intro h
    rw [List.range'_succ, Mat.rowEchelonFor]
    by_cases hrn' : r ≥ n
    · rw [if_pos hrn']
      exact ⟨w, r, hrn, by omega, h, hg⟩
    · rw [if_neg hrn']
      push Not at hrn'
      have hc : c < m := by omega
      rcases hg.pivot b powi hrn' hc (by omega) h.b with hp | ⟨s, hp, hs, hsn, hve, hpo⟩
      · rw [hp, bind_ok]
        exact ih (c + 1) r (by omega) hrn (by omega) hg h
      · rw [hp, bind_ok]
        have hg' := (hg.swap hrn' hs hsn).step hrn' (by omega) hB (hh r hrn' (by omega)) hpo
        simp only [Equiv.swap_apply_left] at hg'
        have := (FormHas.step b powi (E := fun _ => False) (v := w s c) hrn' hc hsn h).bind
          (f := fun f => Mat.rowEchelonFor n (List.range' (c + 1) k) (r + 1) f)
          fun f' h' => ih (c + 1) (r + 1) (by omega) hrn' (by omega) hg' h'
        simpa only [bind_assoc] using this

/-! ### `lu` -/

/-- The entries of `l` and the products with those of `u`. -/
structure GrowL (n m r : ℕ) (B : ℚ) (l w : ℕ → ℕ → Flt) : Prop where
  left : ∀ i t, t < r → t ≤ i → i < n → (l i t).value ≠ none ∧ |(l i t).val| ≤ (9 / 4) ^ t * B
  prod : ∀ i t j, t < r → t ≤ i → i < n → j < m → |(l i t).val * (w t j).val| ≤ 10 / 9 * ((9 / 4) ^ t * B)

theorem GrowL.swap {n m r s : ℕ} {B : ℚ} {l w : ℕ → ℕ → Flt} (h : GrowL n m r B l w) (hr : r < n) (hs : r ≤ s)
    (hsn : s < n) : GrowL n m r B (fun i j => if j < r then l (Equiv.swap r s i) j else l i j)
      (fun i j => w (Equiv.swap r s i) j) where
  left i t ht hti hi := by
    simp only [if_pos ht]
    refine h.left _ t ht ?_ (swap_lt hr hsn hi)
    rw [Equiv.swap_apply_def]; split_ifs <;> omega
  prod i t j ht hti hi hj := by
    simp only [if_pos ht, swap_of_lt hs ht]
    refine h.prod _ t j ht ?_ (swap_lt hr hsn hi) hj
    rw [Equiv.swap_apply_def]; split_ifs <;> omega

theorem GrowL.step {n m r c : ℕ} {B : ℚ} {l w : ℕ → ℕ → Flt} (h : GrowL n m r B l w) (hg : Grow n m r B w) (hr : r < n)
    (hc : c < m) (hB : 1 ≤ B) (hh : 2 ^ (sig + 1) * ((9 / 4) ^ r * B) < huge) (hp : PivotOk n r c w) :
    GrowL n m (r + 1) B (stepL r c (w r c) w l) (stepU r c (w r c) w) := by
  have key : ∀ i, r ≤ i → i < n → stepL r c (w r c) w l i r = w i c := by
    intro i hri hi
    unfold stepL
    by_cases hi' : i = r
    · subst hi'; rw [if_pos rfl, if_pos rfl]
    · rw [if_pos rfl, if_neg hi', if_pos (by omega)]
  have old : ∀ i t, t < r → stepL r c (w r c) w l i t = l i t := by
    intro i t ht
    unfold stepL
    rw [if_neg (by omega)]
  refine ⟨fun i t ht hti hi => ?_, fun i t j ht hti hi hj => ?_⟩
  · by_cases htr : t = r
    · subst htr
      rw [key i hti hi]
      exact hg.todo i c hti hi hc
    · rw [old i t (by omega)]
      exact h.left i t (by omega) hti hi
  · by_cases htr : t = r
    · subst htr
      rw [key i hti hi, stepU, if_pos rfl, abs_mul]
      have hs := hg.scaled hr hc hB hh hp hj
      refine (mul_le_mul_of_nonneg_right (hp.max i hti hi) (abs_nonneg _)).trans ?_
      rw [← abs_mul]
      exact hs.2.1
    · rw [old i t (by omega), stepU, if_neg htr, if_neg (by omega)]
      exact h.prod i t j (by omega) hti hi hj

theorem luFor_grow (b : Build) (powi : Flt → Int → Flt) {n m : ℕ} {B : ℚ} (hB : 1 ≤ B)
    (hh : ∀ r, r < n → r < m → 2 ^ (sig + 1) * ((9 / 4) ^ r * B) < huge)
    (k c r : ℕ) {lu : LUInternal Flt} {π : ℕ → ℕ} {l w : ℕ → ℕ → Flt} (hcl : c + k ≤ m) (hrn : r ≤ n) (hrc : r ≤ c)
    (hg : Grow n m r B w) (hl : GrowL n m r B l w) :
    letI := field b powi
    lu.Has n m r π l → lu.u.Has n m w → Spec (fun _ => False) (Mat.luFor n (List.range' c k) r lu)
      (fun lu' => ∃ π' l' w' r', r' ≤ n ∧ r' ≤ m ∧ lu'.Has n m r' π' l' ∧ lu'.u.Has n m w' ∧ Grow n m r' B w' ∧
        GrowL n m r' B l' w') := by
  let _ := field b powi
  induction k generalizing c lu l w r π with
  | zero => intro h hw; exact ⟨π, l, w, r, hrn, by omega, h, hw, hg, hl⟩
  | succ k ih =>
    intro h hw
    rw [List.range'_succ, Mat.luFor]
    by_cases hrn' : r ≥ n
    · rw [if_pos hrn']
      exact ⟨π, l, w, r, hrn, by omega, h, hw, hg, hl⟩
    · rw [if_neg hrn']
      push Not at hrn'
      have hc : c < m := by omega
      rcases hg.pivot b powi hrn' hc le_rfl hw with hp | ⟨s, hp, hs, hsn, hve, hpo⟩
      · rw [hp, bind_ok]
        exact ih (c + 1) r (by omega) hrn (by omega) hg hl h hw
      · rw [hp, bind_ok]
        have hr := hh r hrn' (by omega)
        have hg' := (hg.swap hrn' hs hsn).step hrn' hc hB hr hpo
        have hl' := (hl.swap hrn' hs hsn).step (hg.swap hrn' hs hsn) hrn' hc hB hr hpo
        simp only [Equiv.swap_apply_left] at hg' hl'
        have := (lu_step b powi (E := fun _ => False) hrn' hc hs hsn hve h hw).bind
          (f := fun lu => Mat.luFor n (List.range' (c + 1) k) (r + 1) lu)
          fun lu' ⟨h', hw'⟩ => ih (c + 1) (r + 1) (by omega) hrn' (by omega) hg' hl' h' hw'
        simpa only [bind_assoc] using this

theorem huge_gt : (2 : ℚ) ^ maxExp / 2 < huge := by
  rw [huge_eq]
  have h : maxExp = (maxExp - sig - 2) + (sig + 2) := by cases ‹Fmt› <;> decide
  have h1 : (2 : ℚ) ^ maxExp = 2 ^ (maxExp - sig - 2) * 2 ^ (sig + 2) := by rw [← pow_add, ← h]
  rw [h1]
  generalize (2 : ℚ) ^ (maxExp - sig - 2) = x at *
  have hx : 0 < x := by
    by_contra hx
    have h2 : (0 : ℚ) < 2 ^ maxExp := by positivity
    rw [h1] at h2
    have h3 : (0 : ℚ) < 2 ^ (sig + 2) := by positivity
    nlinarith
  have h4 : (8 : ℚ) ≤ 2 ^ (sig + 2) := by rw [pow_succ]; linarith [sig_bound]
  nlinarith

/-- The condition of C231 covers every step. -/
theorem growth_huge {n m : ℕ} {B : ℚ} (hB : 1 ≤ B) (hh : 2 ^ (sig + 1) * ((9 / 4) ^ min n m * B) < 2 ^ maxExp) :
    ∀ r, r < n → r < m → 2 ^ (sig + 1) * ((9 / 4) ^ r * B) < huge := by
  intro r hn hm
  have h1 : (9 / 4 : ℚ) ^ (r + 1) ≤ (9 / 4) ^ min n m := pow_le_pow_right₀ (by norm_num) (by omega)
  have h2 : (0 : ℚ) < 2 ^ (sig + 1) := by positivity
  have h3 : 2 ^ (sig + 1) * ((9 / 4 : ℚ) ^ (r + 1) * B) ≤ 2 ^ (sig + 1) * ((9 / 4) ^ min n m * B) :=
    mul_le_mul_of_nonneg_left (mul_le_mul_of_nonneg_right h1 (by linarith)) h2.le
  have h4 : 2 ^ (sig + 1) * ((9 / 4 : ℚ) ^ (r + 1) * B) = 9 / 4 * (2 ^ (sig + 1) * ((9 / 4) ^ r * B)) := by
    rw [pow_succ (9 / 4 : ℚ)]; ring
  have h5 := huge_gt
  have h6 : 0 < 2 ^ (sig + 1) * ((9 / 4 : ℚ) ^ r * B) := mul_pos h2 (by linarith [growth_pos hB r])
  linarith

/-- All entries that are left are within the greatest bound. -/
theorem Grow.all {n m m' r : ℕ} {B : ℚ} {w : ℕ → ℕ → Flt} (h : Grow n m' r B w) (hB : 1 ≤ B) (hn : r ≤ n) (hm : r ≤ m) :
    ∀ i j, i < n → j < m' → (w i j).value ≠ none ∧ |(w i j).val| ≤ 2 ^ (sig + 1) * ((9 / 4) ^ min n m * B) := by
  intro i j hi hj
  have h2 : (4 : ℚ) ≤ 2 ^ (sig + 1) := sig_bound
  have mono : ∀ k, k ≤ r → (9 / 4 : ℚ) ^ k * B ≤ (9 / 4) ^ min n m * B := fun k hk =>
    mul_le_mul_of_nonneg_right (pow_le_pow_right₀ (by norm_num) (by omega)) (by linarith)
  by_cases hir : i < r
  · obtain ⟨h3, h4⟩ := h.done i j hir hi hj
    exact ⟨h3, h4.trans (mul_le_mul_of_nonneg_left (mono i hir.le) (by linarith))⟩
  · obtain ⟨h3, h4⟩ := h.todo i j (by omega) hi hj
    refine ⟨h3, (h4.trans (mono r le_rfl)).trans ?_⟩
    have := growth_pos hB (min n m)
    nlinarith

/-- C231. `row_echelon` of a matrix of moderate `f32` or `f64` entries returns, in both builds, and all entries of both matrices
are finite. -/
theorem C231_row_echelon (b : Build) (powi : Flt → Int → Flt) {M : Mat Flt} {n m : ℕ} {A : ℕ → ℕ → Flt} {B : ℚ}
    (hA : ∀ i j, i < n → j < m → (A i j).Valid ∧ (A i j).value ≠ none ∧ |(A i j).val| ≤ B) (hB : 1 ≤ B)
    (hh : 2 ^ (sig + 1) * ((9 / 4) ^ min n m * B) < 2 ^ maxExp) (hnn : n * n < 18446744073709551616) :
    letI := field b powi
    M.Has n m A → ∃ f C Q, M.rowEchelon = .ok f ∧ f.b.Has n m C ∧ f.p.Has n n Q ∧
      (∀ i j, i < n → j < m → (C i j).value ≠ none ∧ |(C i j).val| ≤ 2 ^ (sig + 1) * ((9 / 4) ^ min n m * B)) ∧
      (∀ i j, i < n → j < n → (Q i j).value ≠ none ∧ |(Q i j).val| ≤ 2 ^ (sig + 1) * ((9 / 4) ^ min n m * B)) := by
  let _ := field b powi
  intro h
  have hid : (Mat.identity n : Mat Flt).Has n n (fun i j => if i = j then one else zero) :=
    Mat.has_of_box h.rows_lt h.rows_lt hnn
  have hg : Grow n (m + n) 0 B (augment m A) := by
    have key : ∀ i j, i < n → j < m + n → (augment m A i j).Valid ∧ (augment m A i j).value ≠ none ∧
        |(augment m A i j).val| ≤ B := by
      intro i j hi hj
      unfold augment
      split
      · exact hA i j hi ‹_›
      · split
        · refine ⟨by fmt_decide, by rw [value_one]; simp, ?_⟩
          rw [val_one, abs_one]; exact hB
        · refine ⟨by fmt_decide, by rw [value_zero]; simp, ?_⟩
          rw [val_zero, abs_zero]; linarith
    refine ⟨fun i j hi hj => (key i j hi hj).1, fun i j _ hi hj => ?_, fun i j hi => absurd hi (by omega)⟩
    rw [pow_zero, one_mul]
    exact (key i j hi hj).2
  have hf : FormHas (⟨Mat.identity n, M, M⟩ : Form Flt) n m (augment m A) := by
    refine ⟨h.congr fun i j _ hj => ?_, hid.congr fun i j _ _ => by simp [augment]⟩
    unfold augment; rw [if_pos hj]
  have hs := rowEchelonFor_grow b powi hB (growth_huge hB hh) m 0 0 (by omega) (by omega) le_rfl hg hf
  unfold Mat.rowEchelon
  rw [h.rows, h.cols, List.range_eq_range' (n := m)]
  cases hx : Mat.rowEchelonFor n (List.range' 0 m) 0 (⟨Mat.identity n, M, M⟩ : Form Flt) with
  | panic p => rw [hx] at hs; exact hs.elim
  | diverge => rw [hx] at hs; exact hs.elim
  | ok f =>
    rw [hx] at hs
    obtain ⟨w, r, hr, hrm, hw, hgr⟩ := hs
    exact ⟨f, w, fun i j => w i (m + j), rfl, hw.b, hw.p, fun i j hi hj => hgr.all hB hr hrm i j hi (by omega),
      fun i j hi hj => hgr.all hB hr hrm i (m + j) hi (by omega)⟩

omit [Fmt] in
theorem geometric (r : ℕ) : ∑ t ∈ Finset.range r, (9 / 4 : ℚ) ^ t = 4 / 5 * ((9 / 4) ^ r - 1) := by
  induction r with
  | zero => simp
  | succ r ih => rw [Finset.sum_range_succ, ih, pow_succ]; ring

/-- C231. `lu` of a matrix of moderate `f32` or `f64` entries returns, in both builds, all entries of `l` and `u` are finite, and
`p M` and the exact product of `l` and `u` differ by at most
`((1 + 2^-prec)^(n+7) - 1) 2 (9/4)^min(n,m) B + (1 + 2^-prec)^n (n + 2 (9/4)^min(n,m) B) 2^-(unitExp + 1)`, where `B` bounds
the entries. -/
theorem C231_lu (b : Build) (powi : Flt → Int → Flt) {M : Mat Flt} {n m : ℕ} {A : ℕ → ℕ → Flt} {B : ℚ}
    (hA : ∀ i j, i < n → j < m → (A i j).Valid ∧ (A i j).value ≠ none ∧ |(A i j).val| ≤ B) (hB : 1 ≤ B)
    (hh : 2 ^ (sig + 1) * ((9 / 4) ^ min n m * B) < 2 ^ maxExp) (hnn : n * n < 18446744073709551616) :
    letI := field b powi
    M.Has n m A → ∃ (d : LU Flt) (π : Equiv.Perm (Fin n)) (l u : ℕ → ℕ → Flt), M.lu = .ok d ∧
      (d.p.Shape n n ∧ ∀ i j : Fin n, d.p.get i j = .ok (if π i = j then one else zero)) ∧
      d.l.Has n n l ∧ d.u.Has n m u ∧
      (∀ i j, i < n → j < n → (l i j).value ≠ none ∧ |(l i j).val| ≤ (9 / 4) ^ min n m * B) ∧
      (∀ i j, i < n → j < m → (u i j).value ≠ none ∧ |(u i j).val| ≤ 2 ^ (sig + 1) * ((9 / 4) ^ min n m * B)) ∧
      ∀ (i : Fin n) (j : ℕ), j < m →
        |(A (π i) j).val - ∑ t ∈ Finset.range n, (l i t).val * (u t j).val| ≤
          ((1 + 1 / 2 ^ prec) ^ (n + 7) - 1) * (2 * ((9 / 4) ^ min n m * B)) +
            (1 + 1 / 2 ^ prec) ^ n * (n + 2 * ((9 / 4) ^ min n m * B)) * tiny := by
  let _ := field b powi
  intro h
  have hg : Grow n m 0 B A := by
    refine ⟨fun i j hi hj => (hA i j hi hj).1, fun i j _ hi hj => ?_, fun i j hi => absurd hi (by omega)⟩
    rw [pow_zero, one_mul]
    exact (hA i j hi hj).2
  have hgl : GrowL n m 0 B (fun i j => if i = j then one else zero) A :=
    ⟨fun i t ht => absurd ht (by omega), fun i t j ht => absurd ht (by omega)⟩
  have hs := luFor_grow b powi hB (growth_huge hB hh) m 0 0 (lu := ⟨List.range n, Mat.identity n, M⟩) (by omega)
    (by omega) le_rfl hg hgl
    ⟨by simp, fun i hi => by simp [hi], ⟨fun i hi => hi, fun i j _ _ h => h⟩,
      Mat.has_of_box h.rows_lt h.rows_lt hnn, h.shape, fun i j hij _ => if_neg (by omega),
      fun i j _ _ _ => rfl, fun i hi => absurd hi (by omega)⟩ h
  have herr := C131_lu b powi (fun i j hi hj => (hA i j hi hj).1) hnn h
  unfold Mat.lu at herr ⊢
  rw [h.rows, h.cols, List.range_eq_range' (n := m)] at herr ⊢
  cases hx : Mat.luFor n (List.range' 0 m) 0 (⟨List.range n, Mat.identity n, M⟩ : LUInternal Flt) with
  | panic p => rw [hx] at hs; exact hs.elim
  | diverge => rw [hx] at hs; exact hs.elim
  | ok d =>
    rw [hx] at hs herr
    obtain ⟨π', l', w, r, hr, hrm, h', hw, hgr, hglr⟩ := hs
    obtain ⟨π, l, u, hp, hl, hu, he⟩ := herr
    have el : ∀ i j, i < n → j < n → l i j = l' i j := fun i j hi hj =>
      Res.ok.inj ((hl.get hi hj).symm.trans (h'.l_has.get hi hj))
    have eu : ∀ i j, i < n → j < m → u i j = w i j := fun i j hi hj =>
      Res.ok.inj ((hu.get hi hj).symm.trans (hw.get hi hj))
    have hG := growth_pos hB (min n m)
    have mono : ∀ k, k ≤ r → (9 / 4 : ℚ) ^ k * B ≤ (9 / 4) ^ min n m * B := fun k hk =>
      mul_le_mul_of_nonneg_right (pow_le_pow_right₀ (by norm_num) (by omega)) (by linarith)
    have lid : ∀ i t, i < n → t < n → (i < t ∨ r ≤ t) → l i t = if i = t then one else zero := by
      intro i t hi ht hc
      rw [el i t hi ht]
      by_cases hrt : r ≤ t
      · exact h'.right i t hi ht hrt
      · rw [if_neg (by omega)]
        exact h'.lower i t (by omega) ht
    have hL : ∀ i j, i < n → j < n → (l i j).value ≠ none ∧ |(l i j).val| ≤ (9 / 4) ^ min n m * B := by
      intro i j hi hj
      by_cases hc : i < j ∨ r ≤ j
      · rw [lid i j hi hj hc]
        split
        · rw [value_one, val_one, abs_one]; exact ⟨by simp, hG⟩
        · rw [value_zero, val_zero, abs_zero]; exact ⟨by simp, by linarith⟩
      · rw [el i j hi hj]
        obtain ⟨h1, h2⟩ := hglr.left i j (by omega) (by omega) hi
        exact ⟨h1, h2.trans (mono j (by omega))⟩
    have hU : ∀ i j, i < n → j < m →
        (u i j).value ≠ none ∧ |(u i j).val| ≤ 2 ^ (sig + 1) * ((9 / 4) ^ min n m * B) := by
      intro i j hi hj
      rw [eu i j hi hj]
      exact hgr.all hB hr hrm i j hi hj
    refine ⟨_, π, l, u, rfl, hp, hl, hu, hL, hU, fun i j hj => ?_⟩
    have hsum : ∑ t ∈ Finset.range n, |(l i t).val| * |(u t j).val| ≤ 2 * ((9 / 4) ^ min n m * B) := by
      have hterm : ∀ t ∈ Finset.range n, |(l i t).val| * |(u t j).val| ≤
          (if t < r then 10 / 9 * ((9 / 4) ^ t * B) else 0) + if t = i then (9 / 4) ^ r * B else 0 := by
        intro t ht
        have ht := Finset.mem_range.mp ht
        have hr0 : (0 : ℚ) ≤ (9 / 4) ^ r * B := by linarith [growth_pos hB r]
        have ht0 : (0 : ℚ) ≤ (9 / 4) ^ t * B := by linarith [growth_pos hB t]
        by_cases hc : (i : ℕ) < t ∨ r ≤ t
        · rw [lid i t i.2 ht hc]
          by_cases hit : (i : ℕ) = t
          · have hrt : r ≤ t := by omega
            rw [if_pos hit, if_neg (by omega), if_pos hit.symm, val_one, abs_one, one_mul, zero_add, eu t j ht hj]
            exact (hgr.todo t j hrt ht hj).2
          · rw [if_neg hit, val_zero, abs_zero, zero_mul]
            refine add_nonneg ?_ ?_ <;> split <;> linarith
        · have h1 := hglr.prod i t j (by omega) (by omega) i.2 hj
          rw [← el i t i.2 ht, ← eu t j ht hj, abs_mul] at h1
          rw [if_pos (by omega)]
          refine h1.trans (le_add_of_nonneg_right ?_)
          split <;> first | exact hr0 | exact le_rfl
      refine (Finset.sum_le_sum hterm).trans ?_
      rw [Finset.sum_add_distrib, Finset.sum_ite_eq', if_pos (Finset.mem_range.mpr i.2)]
      have e : ∑ t ∈ Finset.range n, (if t < r then 10 / 9 * ((9 / 4 : ℚ) ^ t * B) else 0) =
          10 / 9 * B * (4 / 5 * ((9 / 4) ^ r - 1)) := by
        rw [← geometric, Finset.mul_sum, ← Finset.sum_subset (Finset.range_subset_range.mpr hr)]
        · refine Finset.sum_congr rfl fun t ht => ?_
          rw [if_pos (Finset.mem_range.mp ht)]; ring
        · intro t _ ht
          rw [if_neg (fun hc => ht (Finset.mem_range.mpr hc))]
      rw [e]
      have := mono r le_rfl
      nlinarith
    obtain ⟨-, -, hb⟩ := he i j hj (hU i j i.2 hj).1 (hL i i i.2 i.2).1
    refine hb.trans (add_le_add (mul_le_mul_of_nonneg_left hsum ?_) ?_)
    · have : (1 : ℚ) ≤ (1 + 1 / 2 ^ prec) ^ (n + 7) := one_le_pow₀ (by
        have : (0 : ℚ) ≤ 1 / 2 ^ prec := by positivity
        linarith)
      linarith
    · refine mul_le_mul_of_nonneg_right (mul_le_mul_of_nonneg_left ?_ (by positivity)) tiny_pos.le
      have := (hL i i i.2 i.2).2
      linarith

set_option exponentiation.threshold 1024 in
theorem moderate {n m : ℕ} (h : min n m ≤ match ‹Fmt› with | .f32 => 20 | .f64 => 100) :
    2 ^ (sig + 1) * ((9 / 4) ^ min n m * match ‹Fmt› with | .f32 => 10 ^ 20 | .f64 => 10 ^ 200) < (2 : ℚ) ^ maxExp := by
  have key : ∀ k, min n m ≤ k → (9 / 4 : ℚ) ^ min n m ≤ (9 / 4) ^ k := fun k hk =>
    pow_le_pow_right₀ (by norm_num) hk
  cases hF : ‹Fmt› <;> simp only [hF] at h ⊢
  · have := key 20 h
    simp only [sig, maxExp]
    generalize (9 / 4 : ℚ) ^ min n m = x at *
    refine lt_of_le_of_lt (mul_le_mul_of_nonneg_left (mul_le_mul_of_nonneg_right this (by norm_num)) (by norm_num)) ?_
    norm_num
  · have := key 100 h
    simp only [sig, maxExp]
    generalize (9 / 4 : ℚ) ^ min n m = x at *
    refine lt_of_le_of_lt (mul_le_mul_of_nonneg_left (mul_le_mul_of_nonneg_right this (by norm_num)) (by norm_num)) ?_
    norm_num

/-- C231. For instance, `lu` and `row_echelon` return for `f64` matrices with at most 100 rows or at most 100 columns and entries
of absolute value at most `1e200`, and for `f32` matrices with at most 20 rows or columns and entries at most `1e20`. -/
theorem C231_moderate (b : Build) (powi : Flt → Int → Flt) {M : Mat Flt} {n m : ℕ} {A : ℕ → ℕ → Flt}
    (hA : ∀ i j, i < n → j < m → (A i j).Valid ∧ (A i j).value ≠ none ∧
      |(A i j).val| ≤ match ‹Fmt› with | .f32 => 10 ^ 20 | .f64 => 10 ^ 200)
    (hk : min n m ≤ match ‹Fmt› with | .f32 => 20 | .f64 => 100) (hnn : n * n < 18446744073709551616) :
    letI := field b powi
    M.Has n m A → (∃ d, M.lu = .ok d) ∧ ∃ f, M.rowEchelon = .ok f := by
  let _ := field b powi
  intro h
  have hB : (1 : ℚ) ≤ match ‹Fmt› with | .f32 => 10 ^ 20 | .f64 => 10 ^ 200 := by
    cases ‹Fmt› <;> norm_num
  obtain ⟨d, -, -, -, hd, -⟩ := C231_lu b powi hA hB (moderate hk) hnn h
  obtain ⟨f, -, -, hf, -⟩ := C231_row_echelon b powi hA hB (moderate hk) hnn h
  exact ⟨⟨d, hd⟩, f, hf⟩

set_option exponentiation.threshold 1024 in
/-- The hypotheses hold for the matrix with the rows `(3.0, 1.0)` and `(misfit, 7.0)` and the bound 49. -/
example (powi : Flt → Int → Flt) : letI := field .debug powi
    (∃ A, matErr.Has 2 2 A ∧
      ∀ i j, i < 2 → j < 2 → (A i j).Valid ∧ (A i j).value ≠ none ∧ |(A i j).val| ≤ (49 : ℚ)) ∧
    (2 : ℚ) ^ (sig + 1) * ((9 / 4) ^ min 2 2 * 49) < 2 ^ maxExp := by
  let _ := field .debug powi
  refine ⟨⟨fun i j => if i = 0 then if j = 0 then fin false (3 * unit) else one else
    if j = 0 then misfit else fin false (7 * unit), ⟨rfl, rfl, rfl, by decide, by decide, by decide, ?_⟩, ?_⟩, ?_⟩
  · intro i j hi hj
    interval_cases i <;> interval_cases j <;> rfl
  · have hu := unit_posQ
    have hv : ∀ k : ℕ, k ≤ 49 → (fin false (k * unit)).value ≠ none ∧ |(fin false (k * unit)).val| ≤ (49 : ℚ) := by
      intro k hk
      have e : (fin false (k * unit)).value = some (k : ℚ) := by
        simp [value, units, hu.ne']
      rw [val_eq e, e, abs_of_nonneg (by positivity)]
      exact ⟨by simp, by exact_mod_cast hk⟩
    have hm : misfit.value ≠ none ∧ |misfit.val| ≤ (49 : ℚ) := hv _ (by cases ‹Fmt› <;> decide)
    have h1 : one.value ≠ none ∧ |one.val| ≤ (49 : ℚ) := by rw [value_one, val_one]; exact ⟨by simp, by norm_num⟩
    intro i j hi hj
    interval_cases i <;> interval_cases j
    · exact ⟨show (fin false (3 * unit)).Valid by fmt_decide, hv 3 (by decide)⟩
    · exact ⟨show one.Valid by fmt_decide, h1⟩
    · exact ⟨show misfit.Valid by fmt_decide, hm⟩
    · exact ⟨show (fin false (7 * unit)).Valid by fmt_decide, hv 7 (by decide)⟩
  · cases ‹Fmt› <;> norm_num [sig, maxExp]

end Flt
end Verif
