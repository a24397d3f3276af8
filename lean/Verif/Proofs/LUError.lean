import Verif.Proofs.F64Error
import Verif.Proofs.Shape
import Mathlib.Algebra.BigOperators.Intervals
import Mathlib.Algebra.Order.Ring.Pow

/-!
# Rounding errors of `lu` over `f32` and `f64`

`M.lu` returns `p`, `l`, `u` such that `p M` and `l u` agree up to the errors of the elimination steps,
which are small compared with the products `|l| |u|`.
-/

namespace Verif
open Res LinAlg

/-! ### Row operations, entry by entry -/

namespace Mat
variable {F : Type} [RField F] {M : Mat F} {n m : ℕ} {a : ℕ → ℕ → F}

theorem Has.permuteRows (h : M.Has n m a) {E : Panic → Prop} {s t : ℕ} (hs : s < n) (ht : t < n) :
    Spec E (M.permuteRows s t) (fun M' => M'.Has n m (fun i j => a (Equiv.swap s t i) j)) := by
  unfold Mat.permuteRows
  rw [h.cols]
  refine Spec.imp (P := fun M' => M'.Has n m
    (fun i j => if j < m then a (Equiv.swap s t i) j else a i j)) ?_ fun M' hM' =>
      hM'.congr fun i j _ hj => if_pos hj
  refine foldlM_range_spec (fun k (M' : Mat F) => M'.Has n m
    (fun i j => if j < k then a (Equiv.swap s t i) j else a i j)) ?_ ?_
  · exact h.congr fun i j _ _ => by simp
  · intro k M' hk hM'
    rw [hM'.get hs hk, bind_ok, hM'.get ht hk, bind_ok]
    refine (hM'.set_spec hs hk).bind fun M₁ hM₁ => ?_
    refine (hM₁.set_spec ht hk).imp fun M₂ hM₂ => hM₂.congr fun i j _ _ => ?_
    by_cases hjk : j = k
    · subst hjk
      by_cases hit : i = t
      · subst hit; simp
      · by_cases his : i = s
        · subst his; simp [hit]
        · simp [hit, his, Equiv.swap_apply_of_ne_of_ne his hit]
    · simp only [hjk, and_false, if_false]
      by_cases hlt : j < k
      · rw [if_pos hlt, if_pos (by omega)]
      · rw [if_neg hlt, if_neg (by omega)]

end Mat

namespace Flt
open Fmt
variable [Fmt]

section ops
variable (b : Build) (powi : Flt → Int → Flt) {M : Mat Flt} {n m : ℕ} {a : ℕ → ℕ → Flt}

theorem has_scaleRow {E : Panic → Prop} {r : ℕ} (x : Flt) (hr : r < n) :
    letI := field b powi
    M.Has n m a → Spec E (M.scaleRow r x) (fun M' => M'.Has n m
      (fun i j => if i = r then mul x (a i j) else a i j)) := by
  let _ := field b powi
  intro h
  unfold Mat.scaleRow
  rw [h.cols]
  refine Spec.imp (P := fun M' => M'.Has n m
    (fun i j => if i = r ∧ j < m then mul x (a i j) else a i j)) ?_ fun M' hM' =>
      hM'.congr fun i j _ hj => by simp [hj]
  refine foldlM_range_spec (fun k (M' : Mat Flt) => M'.Has n m
    (fun i j => if i = r ∧ j < k then mul x (a i j) else a i j)) ?_ ?_
  · exact h.congr fun i j _ _ => by simp
  · intro k M' hk hM'
    rw [hM'.get hr hk, bind_ok]
    refine Spec.bind (P := fun y => y = mul x (a r k)) ?_ ?_
    · show Spec E (.ok _) _
      simp
    · rintro y rfl
      refine (hM'.set_spec hr hk).imp fun M₁ hM₁ => hM₁.congr fun i j _ _ => ?_
      by_cases hir : i = r
      · subst hir
        by_cases hjk : j = k
        · subst hjk; simp
        · by_cases hlt : j < k
          · simp [hjk, hlt, Nat.lt_succ_of_lt hlt]
          · have : ¬ j < k + 1 := by omega
            simp [hjk, hlt, this]
      · simp [hir]

theorem has_replaceRow {E : Panic → Prop} {s t : ℕ} (x : Flt) (hs : s < n) (ht : t < n) (hst : s ≠ t) :
    letI := field b powi
    M.Has n m a → Spec E (M.replaceRow s t x) (fun M' => M'.Has n m
      (fun i j => if i = t then add (a i j) (mul (a s j) x) else a i j)) := by
  let _ := field b powi
  intro h
  unfold Mat.replaceRow
  rw [h.cols]
  refine Spec.imp (P := fun M' => M'.Has n m
    (fun i j => if i = t ∧ j < m then add (a i j) (mul (a s j) x) else a i j)) ?_ fun M' hM' =>
      hM'.congr fun i j _ hj => by simp [hj]
  refine foldlM_range_spec (fun k (M' : Mat Flt) => M'.Has n m
    (fun i j => if i = t ∧ j < k then add (a i j) (mul (a s j) x) else a i j)) ?_ ?_
  · exact h.congr fun i j _ _ => by simp
  · intro k M' hk hM'
    rw [hM'.get ht hk, bind_ok, hM'.get hs hk, bind_ok]
    refine Spec.bind (P := fun y => y = mul (a s k) x) ?_ ?_
    · show Spec E (.ok _) _
      simp [hst]
    · rintro y rfl
      refine Spec.bind (P := fun y => y = add (a t k) (mul (a s k) x)) ?_ ?_
      · show Spec E (.ok _) _
        simp
      · rintro y rfl
        refine (hM'.set_spec ht hk).imp fun M₁ hM₁ => hM₁.congr fun i j _ _ => ?_
        by_cases hit : i = t
        · subst hit
          by_cases hjk : j = k
          · subst hjk; simp
          · by_cases hlt : j < k
            · simp [hjk, hlt, Nat.lt_succ_of_lt hlt]
            · have : ¬ j < k + 1 := by omega
              simp [hjk, hlt, this]
        · simp [hit]

end ops

/-! ### One step -/

/-- `u` after row `r` has been scaled by the inverse of `v` and its multiples have been subtracted from the
rows below. -/
def stepU (r c : ℕ) (v : Flt) (w : ℕ → ℕ → Flt) (i j : ℕ) : Flt :=
  if i = r then mul (div one v) (w i j)
  else if r < i then add (w i j) (mul (mul (div one v) (w r j)) (sub zero (w i c)))
  else w i j

/-- `l` after the same step. -/
def stepL (r c : ℕ) (v : Flt) (w l : ℕ → ℕ → Flt) (i j : ℕ) : Flt :=
  if j = r then (if i = r then v else if r < i then w i c else l i j) else l i j

theorem lu_step (b : Build) (powi : Flt → Int → Flt) {E : Panic → Prop} {lu : LUInternal Flt}
    {n m r s c : ℕ} {v : Flt} {π : ℕ → ℕ} {l w : ℕ → ℕ → Flt} (hr : r < n) (hc : c < m) (hs : r ≤ s)
    (hsn : s < n) :
    letI := field b powi
    epsilonEquals v zero = false → lu.Has n m r π l → lu.u.Has n m w →
    Spec E (do
      let lu ← lu.permute r s
      let lu ← lu.scaleRow r v
      lu.replaceColUnderRow r c) (fun lu' =>
        lu'.Has n m (r + 1) (fun i => π (Equiv.swap r s i))
          (stepL r c v (fun i j => w (Equiv.swap r s i) j)
            (fun i j => if j < r then l (Equiv.swap r s i) j else l i j)) ∧
        lu'.u.Has n m (stepU r c v fun i j => w (Equiv.swap r s i) j)) := by
  let _ := field b powi
  intro hv h hw
  obtain ⟨p', h1, h2, h3⟩ := swapList_perm (l := lu.p) (i := r) (j := s) (by rw [h.p_len]; exact hr)
    (by rw [h.p_len]; exact hsn)
  refine Spec.bind (P := fun lu' : LUInternal Flt => lu'.Has n m r (fun i => π (Equiv.swap r s i))
    (fun i j => if j < r then l (Equiv.swap r s i) j else l i j) ∧
    lu'.u.Has n m (fun i j => w (Equiv.swap r s i) j)) ?_ ?_
  · unfold LUInternal.permute
    rw [h1, bind_ok]
    refine (hw.permuteRows hr hsn).bind fun u' hu' => ?_
    refine (h.l_has.permuteUnderDiagonal hr hsn (by omega)).bind fun l' hl => ?_
    refine ⟨⟨h2.trans h.p_len, fun i hi => (h3 i).trans (h.p_get _ (swap_lt hr hsn hi)),
      h.perm.swap hr hsn, hl, hu'.shape, fun i j hij hj => ?_, fun i j hi hj hrj => ?_,
      fun i hi hin => ?_⟩, hu'⟩
    · split
      · rename_i hjr
        rw [swap_of_lt hs (by omega)]
        exact h.lower i j hij hj
      · exact h.lower i j hij hj
    · rw [if_neg (by omega)]; exact h.right i j hi hj hrj
    · rw [if_pos hi, swap_of_lt hs hi]; exact h.diag i hi hin
  · rintro lu₁ ⟨h₁, hw₁⟩
    generalize hl₁ : (fun i j => if j < r then l (Equiv.swap r s i) j else l i j) = l₁ at h₁ ⊢
    generalize hπ₁ : (fun i => π (Equiv.swap r s i)) = π₁ at h₁ ⊢
    generalize hwe : (fun i j => w (Equiv.swap r s i) j) = w₁ at hw₁ ⊢
    clear hl₁ hπ₁ hwe
    refine Spec.bind (P := fun lu' : LUInternal Flt => lu'.Has n m (r + 1) π₁
        (fun i j => if i = r ∧ j = r then v else l₁ i j) ∧
        lu'.u.Has n m (fun i j => if i = r then mul (div one v) (w₁ i j) else w₁ i j)) ?_ ?_
    · unfold LUInternal.scaleRow
      refine (h₁.l_has.set_spec hr hr).bind fun l' hl => ?_
      refine Spec.bind (P := fun y => y = div one v) rfl ?_
      rintro _ rfl
      refine (has_scaleRow b powi (div one v) hr hw₁).bind fun u' hu' => ?_
      refine ⟨⟨h₁.p_len, h₁.p_get, h₁.perm, hl, hu'.shape, fun i j hij hj => ?_,
        fun i j hi hj hrj => ?_, fun i hi hin => ?_⟩, hu'⟩
      · rw [if_neg (by omega)]; exact h₁.lower i j hij hj
      · rw [if_neg (by omega)]; exact h₁.right i j hi hj (by omega)
      · by_cases hir : i = r
        · rw [if_pos ⟨hir, hir⟩]; exact congrArg Res.ok hv
        · rw [if_neg (by omega)]; exact h₁.diag i (by omega) hin
    · rintro lu₂ ⟨h₂, hw₂⟩
      unfold LUInternal.replaceColUnderRow
      rw [h₂.u_shape.rows]
      refine (foldlM_range'_spec (fun k (lu' : LUInternal Flt) =>
        lu'.Has n m (r + 1) π₁ (fun i j => if j = r then (if i = r then v else
          if r < i ∧ i < k then w₁ i c else l₁ i j) else l₁ i j) ∧
        lu'.u.Has n m (fun i j => if i = r then mul (div one v) (w₁ i j)
          else if r < i ∧ i < k then
            add (w₁ i j) (mul (mul (div one v) (w₁ r j)) (sub zero (w₁ i c)))
          else w₁ i j)) ?_ ?_).imp ?_
      · refine ⟨⟨h₂.p_len, h₂.p_get, h₂.perm, h₂.l_has.congr fun i j _ _ => ?_, h₂.u_shape,
          fun i j hij hj => ?_, fun i j hi hj hrj => ?_, fun i hi hin => ?_⟩,
          hw₂.congr fun i j _ _ => ?_⟩
        · by_cases hi : i = r <;> by_cases hj : j = r <;> simp [hi, hj]
        · have := h₂.lower i j hij hj
          have h4 : ¬ (r < i ∧ i < r + 1) := by omega
          rw [if_neg (by omega)] at this
          rw [if_neg h4, this]
          by_cases hj : j = r
          · rw [if_pos hj, if_neg (by omega)]
          · rw [if_neg hj]
        · have := h₂.right i j hi hj hrj
          rw [if_neg (by omega)] at this
          rw [if_neg (by omega), this]
        · have := h₂.diag i hi hin
          have h4 : ¬ (r < i ∧ i < r + 1) := by omega
          by_cases hi : i = r
          · rw [if_pos hi, if_pos hi]; rwa [if_pos ⟨hi, hi⟩] at this
          · rw [if_neg hi]; rwa [if_neg (by omega)] at this
        · have : ¬ (r < i ∧ i < r + 1) := by omega
          rw [if_neg this]
      · rintro k lu' hk hk' ⟨h', hw'⟩
        rw [hw'.get (show k < n by omega) hc, bind_ok]
        rw [if_neg (by omega), if_neg (by omega)]
        refine Spec.bind (P := fun y => y = sub zero (w₁ k c)) rfl ?_
        rintro _ rfl
        refine (has_replaceRow b powi (sub zero (w₁ k c)) hr (show k < n by omega) (by omega)
          hw').bind fun u' hu' => ?_
        refine (h'.l_has.set_spec (show k < n by omega) hr (y := w₁ k c)).bind fun l'' hl' => ?_
        refine ⟨⟨h'.p_len, h'.p_get, h'.perm, hl'.congr fun i j _ _ => ?_, hu'.shape,
          fun i j hij hj => ?_, fun i j hi hj hrj => ?_, fun i hi hin => ?_⟩,
          hu'.congr fun i j _ _ => ?_⟩
        · by_cases hj : j = r
          · by_cases hi : i = k
            · rw [if_pos ⟨hi, hj⟩, if_pos hj, if_neg (by omega), if_pos (by omega), hi]
            · rw [if_neg (by omega), if_pos hj, if_pos hj]
              have : (r < i ∧ i < k) ↔ (r < i ∧ i < k + 1) := by omega
              simp only [this]
          · rw [if_neg (by omega), if_neg hj, if_neg hj]
        · have := h'.lower i j hij hj
          by_cases hj : j = r
          · rw [if_pos hj, if_neg (by omega), if_neg (by omega)] at this
            rw [if_pos hj, if_neg (by omega), if_neg (by omega), this]
          · rw [if_neg hj] at this
            rw [if_neg hj, this]
        · have := h'.right i j hi hj hrj
          rw [if_neg (by omega)] at this
          rw [if_neg (by omega), this]
        · have := h'.diag i hi hin
          by_cases hi : i = r
          · rw [if_pos hi, if_pos hi] at this; rwa [if_pos hi, if_pos hi]
          · rw [if_neg hi] at this; rwa [if_neg hi]
        · by_cases hi : i = k
          · subst hi
            rw [if_pos rfl, if_neg (by omega), if_neg (by omega), if_pos rfl, if_neg (by omega),
              if_pos (by omega)]
          · rw [if_neg hi]
            have : (r < i ∧ i < k) ↔ (r < i ∧ i < k + 1) := by omega
            simp only [this]
      · rintro lu' ⟨h', hw'⟩
        have e : r + 1 + (n - (r + 1)) = n := by omega
        rw [e] at h' hw'
        have key : ∀ i, i < n → ((r < i ∧ i < n) ↔ r < i) := fun i hi => by omega
        refine ⟨⟨h'.p_len, h'.p_get, h'.perm, h'.l_has.congr fun i j hi _ => ?_, h'.u_shape,
          fun i j hij hj => ?_, fun i j hi hj hrj => ?_, fun i hi hin => ?_⟩,
          hw'.congr fun i j hi _ => ?_⟩
        · simp only [stepL, key i hi]
        · have := h'.lower i j hij hj
          simpa only [stepL, key i (by omega)] using this
        · have := h'.right i j hi hj hrj
          simpa only [stepL, key i hi] using this
        · have := h'.diag i hi hin
          simpa only [stepL, key i hin] using this
        · simp only [stepU, key i hi]

/-! ### The error of one step -/

/-- A valid finite number is below `2^maxExp`: in units of half the smallest positive number. -/
theorem val_lt {x : Flt} (hx : x.Valid) : tiny * |x.val| ≤ 4 * roundoff := by
  have hu := roundoff_pos
  cases x with
  | nan => simp only [val, value, Option.getD_none, abs_zero, mul_zero]; positivity
  | inf _ => simp only [val, value, Option.getD_none, abs_zero, mul_zero]; positivity
  | fin s n =>
    have h2 := unit_posQ
    have hl : n * 2 ^ sig < 4 * unit * unit := by
      have h1 : limit * 2 ^ sig = 4 * unit * unit := by
        cases ‹Fmt› <;> decide +kernel
      have h3 : n * 2 ^ sig < limit * 2 ^ sig := Nat.mul_lt_mul_of_pos_right hx.2 (by positivity)
      rwa [h1] at h3
    have hq : (n : ℚ) * 2 ^ sig < 4 * unit * unit := by exact_mod_cast hl
    rw [tiny_eq, val_eq rfl, abs_div, abs_units, abs_of_pos h2, roundoff]
    rw [div_mul_div_comm, div_le_iff₀ (by positivity)]
    have h4 : (n : ℚ) ≤ 4 * unit * unit / 2 ^ sig := (le_div_iff₀ (by positivity)).mpr hq.le
    have h5 : 4 * (1 / 2 ^ (sig + 1)) * (unit * unit : ℚ) = 1 / 2 * (4 * unit * unit / 2 ^ sig) := by
      rw [pow_succ]; field_simp
    rw [h5]
    linarith

theorem sub_zero_val {x : Flt} (hx : x.Valid) (h : (sub zero x).value ≠ none) :
    x.value ≠ none ∧ (sub zero x).val = - x.val := by
  have hs := value_val h
  obtain ⟨-, y, hy⟩ := add_finite hs
  have hn := value_neg x
  rw [hy] at hn
  cases hx' : x.value with
  | none => rw [hx'] at hn; cases hn
  | some a =>
    refine ⟨by simp, ?_⟩
    rw [hx'] at hn
    simp only [Option.map_some, Option.some.injEq] at hn
    rw [zero_add_value value_zero hy (valid_neg x hx) hs, hn, val_eq hx']

/-- The row that is scaled. -/
theorem scale_error {v w : Flt} (hv : v.Valid) (hvf : v.value ≠ none)
    (h : (mul (div one v) w).value ≠ none) :
    w.value ≠ none ∧
    |w.val - v.val * (mul (div one v) w).val| ≤
      7 * roundoff * |v.val * (mul (div one v) w).val| + 2 * tiny * |v.val| := by
  have hq := value_val h
  obtain ⟨⟨ρ, hρ⟩, x, hx⟩ := mul_finite hq
  have hve := value_val hvf
  obtain ⟨ha0, hdiv⟩ := div_error value_one hve hρ
  have hmul := mul_error hρ hx hq
  have hlt := val_lt hv
  generalize v.val = a at *
  generalize (mul (div one v) w).val = q at *
  refine ⟨by rw [hx]; simp, ?_⟩
  rw [val_eq hx]
  have ht := tiny_pos
  have ha : 0 < |a| := abs_pos.mpr ha0
  -- `a ρ` is nearly 1
  have h1 : |a * ρ - 1| ≤ 5 * roundoff := by
    have e : a * ρ - 1 = a * (ρ - 1 / a) := by field_simp
    rw [e, abs_mul]
    calc |a| * |ρ - 1 / a| ≤ |a| * (roundoff * |1 / a| + tiny) :=
          mul_le_mul_of_nonneg_left hdiv ha.le
      _ = roundoff * (|a| * |1 / a|) + tiny * |a| := by ring
      _ = roundoff + tiny * |a| := by rw [← abs_mul, mul_one_div_cancel ha0, abs_one, mul_one]
      _ ≤ 5 * roundoff := by linarith
  have h2 : |a * q - a * ρ * x| ≤ roundoff * |a * ρ * x| + tiny * |a| := by
    have e : a * q - a * ρ * x = a * (q - ρ * x) := by ring
    rw [e, abs_mul, mul_assoc a ρ x, abs_mul a (ρ * x)]
    calc |a| * |q - ρ * x| ≤ |a| * (roundoff * |ρ * x| + tiny) :=
          mul_le_mul_of_nonneg_left hmul ha.le
      _ = _ := by ring
  have h3 : |a * ρ * x - x| ≤ 5 * roundoff * |x| := by
    have e : a * ρ * x - x = (a * ρ - 1) * x := by ring
    rw [e, abs_mul]
    exact mul_le_mul_of_nonneg_right h1 (abs_nonneg x)
  have h4 : |a * ρ * x| ≤ |a * q| + |a * q - a * ρ * x| := by
    have := abs_sub_abs_le_abs_sub (a * ρ * x) (a * q)
    rw [abs_sub_comm] at this
    linarith
  have h5 : |x - a * q| ≤ |a * q - a * ρ * x| + |a * ρ * x - x| := by
    have e : x - a * q = -((a * q - a * ρ * x) + (a * ρ * x - x)) := by ring
    rw [e, abs_neg]
    exact abs_add_le _ _
  have h6 : |x| ≤ |a * q| + |x - a * q| := by
    have := abs_sub_abs_le_abs_sub x (a * q)
    linarith
  have h7 : 0 ≤ tiny * |a| := by positivity
  have h8 := abs_nonneg (a * q)
  generalize |a * q - a * ρ * x| = X at *
  generalize |a * ρ * x - x| = Y at *
  generalize |a * ρ * x| = Z at *
  generalize |x - a * q| = V at *
  generalize |a * q| = Q at *
  generalize |x| = W at *
  rw [mul_assoc 2 tiny]
  generalize tiny * |a| = T at *
  unfold roundoff at *
  rcases sig_cases with h | h <;> rw [h] at h2 h3 hlt ⊢ <;> linarith

/-- A row from which a multiple of the pivot row is subtracted. -/
theorem update_error {w q s : Flt} (hs : s.Valid)
    (h : (add w (mul q (sub zero s))).value ≠ none) :
    w.value ≠ none ∧ q.value ≠ none ∧ s.value ≠ none ∧
    |w.val - s.val * q.val - (add w (mul q (sub zero s))).val| ≤
      roundoff * (|s.val * q.val| + |(add w (mul q (sub zero s))).val|) + tiny := by
  have hc := value_val h
  obtain ⟨⟨a, ha⟩, p, hp⟩ := add_finite hc
  obtain ⟨⟨x, hx⟩, y, hy⟩ := mul_finite hp
  obtain ⟨hsf, hsv⟩ := sub_zero_val hs (by rw [hy]; simp)
  rw [val_eq hy] at hsv
  refine ⟨by simp [ha], by simp [hx], hsf, ?_⟩
  have h1 := add_error' ha hp hc
  have h2 := mul_error hx hy hp
  rw [val_eq ha, val_eq hx]
  subst hsv
  generalize (add w (mul q (sub zero s))).val = c at *
  generalize s.val = z at *
  have e1 : |x * -z| = |z * x| := by rw [mul_neg, abs_neg, mul_comm]
  rw [e1] at h2
  have e : a - z * x - c = -((c - (a + p)) + (p - x * -z)) := by ring
  rw [e, abs_neg]
  refine (abs_add_le _ _).trans ?_
  linarith

omit [Fmt] in
/-- One more subtraction. -/
theorem accumulate {a S x y z B G N u t : ℚ} (h3 : |a - S - x| ≤ (G - 1) * (B + |x|) + G * N * t)
    (herr : |x - y - z| ≤ u * (|y| + |z|) + t) (hA : 0 ≤ B) (hG : 1 ≤ G) (hN : 0 ≤ N) (hu : 0 < u)
    (ht : 0 < t) :
    |a - (S + y) - z| ≤ (G * (1 + u) - 1) * (B + |y| + |z|) + G * (1 + u) * (N + 1) * t := by
  have h6 : |x| ≤ |y| + |z| + |x - y - z| := by
    have e : x = y + z + (x - y - z) := by ring
    calc |x| = |y + z + (x - y - z)| := by rw [← e]
      _ ≤ |y + z| + |x - y - z| := abs_add_le _ _
      _ ≤ _ := by linarith [abs_add_le y z]
  have h7 : |a - (S + y) - z| ≤ |a - S - x| + |x - y - z| := by
    have e : a - (S + y) - z = (a - S - x) + (x - y - z) := by ring
    rw [e]; exact abs_add_le _ _
  have h8 := abs_nonneg y
  have h9 := abs_nonneg z
  generalize |a - S - x| = E1 at *
  generalize |a - (S + y) - z| = E2 at *
  generalize |x - y - z| = E3 at *
  generalize |x| = X at *
  generalize |y| = Y at *
  generalize |z| = Z at *
  have k1 : (G - 1) * X ≤ (G - 1) * (Y + Z + E3) := mul_le_mul_of_nonneg_left h6 (by linarith)
  have k2 : G * E3 ≤ G * (u * (Y + Z) + t) := mul_le_mul_of_nonneg_left herr (by linarith)
  have k3 : 0 ≤ G * u * B := mul_nonneg (mul_nonneg (by linarith) hu.le) hA
  have k4 : 0 ≤ G * u * N * t := by
    have : 0 ≤ G := by linarith
    positivity
  have k5 : 0 ≤ G * u * t := by
    have : 0 ≤ G := by linarith
    positivity
  nlinarith

/-! ### The invariant -/

/-- The exact and the absolute sums of the products of the first `k` columns of `l` and rows of `u`. -/
def sumLU (l w : ℕ → ℕ → Flt) (k i j : ℕ) : ℚ := ∑ t ∈ Finset.range k, (l i t).val * (w t j).val

/-- See `sumLU`. -/
def absLU (l w : ℕ → ℕ → Flt) (k i j : ℕ) : ℚ := ∑ t ∈ Finset.range k, |(l i t).val * (w t j).val|

theorem absLU_nonneg (l w : ℕ → ℕ → Flt) (k i j : ℕ) : 0 ≤ absLU l w k i j :=
  Finset.sum_nonneg fun _ _ => abs_nonneg _

theorem sumLU_succ (l w : ℕ → ℕ → Flt) (k i j : ℕ) :
    sumLU l w (k + 1) i j = sumLU l w k i j + (l i k).val * (w k j).val := Finset.sum_range_succ _ _

theorem absLU_succ (l w : ℕ → ℕ → Flt) (k i j : ℕ) :
    absLU l w (k + 1) i j = absLU l w k i j + |(l i k).val * (w k j).val| := Finset.sum_range_succ _ _

theorem sumLU_congr {l w l' w' : ℕ → ℕ → Flt} {k i i' j : ℕ} (hl : ∀ t, t < k → l i t = l' i' t)
    (hw : ∀ t, t < k → w t j = w' t j) : sumLU l w k i j = sumLU l' w' k i' j :=
  Finset.sum_congr rfl fun t ht => by
    rw [hl t (Finset.mem_range.mp ht), hw t (Finset.mem_range.mp ht)]

theorem absLU_congr {l w l' w' : ℕ → ℕ → Flt} {k i i' j : ℕ} (hl : ∀ t, t < k → l i t = l' i' t)
    (hw : ∀ t, t < k → w t j = w' t j) : absLU l w k i j = absLU l' w' k i' j :=
  Finset.sum_congr rfl fun t ht => by
    rw [hl t (Finset.mem_range.mp ht), hw t (Finset.mem_range.mp ht)]

/-- The rows above `r` are finished, the others are what is left of the rows of the matrix `A` after `r`
steps. -/
structure LUErr (n m : ℕ) (A : ℕ → ℕ → Flt) (r : ℕ) (π : ℕ → ℕ) (l w : ℕ → ℕ → Flt) : Prop where
  valid : ∀ i j, i < n → j < m → (w i j).Valid
  done : ∀ i j, i < r → i < n → j < m → (w i j).value ≠ none → (l i i).value ≠ none →
    (A (π i) j).value ≠ none ∧ (∀ t, t < i → (l i t).value ≠ none ∧ (w t j).value ≠ none) ∧
    |(A (π i) j).val - sumLU l w (i + 1) i j| ≤
      ((1 + roundoff) ^ (i + 7) - 1) * absLU l w (i + 1) i j +
        (1 + roundoff) ^ i * (i + 2 * |(l i i).val|) * tiny
  todo : ∀ i j, r ≤ i → i < n → j < m → (w i j).value ≠ none →
    (A (π i) j).value ≠ none ∧ (∀ t, t < r → (l i t).value ≠ none ∧ (w t j).value ≠ none) ∧
    |(A (π i) j).val - sumLU l w r i j - (w i j).val| ≤
      ((1 + roundoff) ^ r - 1) * (absLU l w r i j + |(w i j).val|) + (1 + roundoff) ^ r * r * tiny

theorem LUErr.swap {n m r s : ℕ} {A : ℕ → ℕ → Flt} {π : ℕ → ℕ} {l w : ℕ → ℕ → Flt}
    (h : LUErr n m A r π l w) (hr : r < n) (hs : r ≤ s) (hsn : s < n) :
    LUErr n m A r (fun i => π (Equiv.swap r s i))
      (fun i j => if j < r then l (Equiv.swap r s i) j else l i j)
      (fun i j => w (Equiv.swap r s i) j) where
  valid i j hi hj := h.valid _ _ (swap_lt hr hsn hi) hj
  done i j hir hi hj hf hlf := by
    simp only [swap_of_lt hs hir, if_pos hir] at hf hlf ⊢
    obtain ⟨h1, h2, h3⟩ := h.done i j hir hi hj hf hlf
    refine ⟨h1, fun t ht => ?_, ?_⟩
    · rw [if_pos (by omega), swap_of_lt hs (by omega)]
      exact h2 t ht
    · rw [sumLU_congr (l' := l) (w' := w) (i' := i), absLU_congr (l' := l) (w' := w) (i' := i)]
      · exact h3
      all_goals intro t ht
      all_goals simp only [swap_of_lt hs hir, swap_of_lt hs (show t < r by omega)]
      all_goals simp
  todo i j hir hi hj hf := by
    have hge : r ≤ Equiv.swap r s i := by
      rw [Equiv.swap_apply_def]; split_ifs <;> omega
    obtain ⟨h1, h2, h3⟩ := h.todo _ j hge (swap_lt hr hsn hi) hj hf
    refine ⟨h1, fun t ht => ?_, ?_⟩
    · simp only [if_pos ht, swap_of_lt hs ht]
      exact h2 t ht
    · rw [sumLU_congr (l' := l) (w' := w) (i' := Equiv.swap r s i),
        absLU_congr (l' := l) (w' := w) (i' := Equiv.swap r s i)]
      · exact h3
      all_goals intro t ht
      · simp only [if_pos ht]
      · simp only [swap_of_lt hs ht]
      · simp only [if_pos ht]
      · simp only [swap_of_lt hs ht]

theorem valid_stepU {n m r c : ℕ} {v : Flt} {w : ℕ → ℕ → Flt}
    (h : ∀ i j, i < n → j < m → (w i j).Valid) :
    ∀ i j, i < n → j < m → (stepU r c v w i j).Valid := by
  intro i j hi hj
  unfold stepU
  split
  · exact valid_mul _ _
  · split
    · exact valid_add _ _
    · exact h i j hi hj

theorem LUErr.step {n m r c : ℕ} {A : ℕ → ℕ → Flt} {π : ℕ → ℕ} {l w : ℕ → ℕ → Flt}
    (h : LUErr n m A r π l w) (hr : r < n) (hc : c < m) :
    LUErr n m A (r + 1) π (stepL r c (w r c) w l) (stepU r c (w r c) w) where
  valid := valid_stepU h.valid
  done i j hir hi hj hf hlf := by
    have hu := roundoff_pos
    have ht := tiny_pos
    have hU : ∀ t, t < r → stepU r c (w r c) w t j = w t j := fun t ht => by
      rw [stepU, if_neg (by omega), if_neg (by omega)]
    have hL : ∀ i t, t < r → stepL r c (w r c) w l i t = l i t := fun i t ht => by
      rw [stepL, if_neg (by omega)]
    by_cases hir' : i < r
    · rw [hU i hir'] at hf
      rw [hL i i hir'] at hlf ⊢
      obtain ⟨h1, h2, h3⟩ := h.done i j hir' hi hj hf hlf
      refine ⟨h1, fun t ht => ?_, ?_⟩
      · rw [hU t (by omega), hL i t (by omega)]; exact h2 t ht
      · rwa [sumLU_congr (l' := l) (w' := w) (i' := i) (fun t ht => hL i t (by omega))
            (fun t ht => hU t (by omega)),
          absLU_congr (l' := l) (w' := w) (i' := i) (fun t ht => hL i t (by omega))
            (fun t ht => hU t (by omega))]
    · have hir : i = r := by omega
      subst hir
      have e1 : stepU i c (w i c) w i j = mul (div one (w i c)) (w i j) := if_pos rfl
      have e2 : stepL i c (w i c) w l i i = w i c := by rw [stepL, if_pos rfl, if_pos rfl]
      rw [e1] at hf
      rw [e2] at hlf
      obtain ⟨hwf, herr⟩ := scale_error (h.valid i c hr hc) hlf hf
      obtain ⟨h1, h2, h3⟩ := h.todo i j le_rfl hi hj hwf
      refine ⟨h1, fun t ht => ?_, ?_⟩
      · rw [hU t ht, hL i t ht]; exact h2 t ht
      · rw [sumLU_succ, absLU_succ, e1, e2,
          sumLU_congr (l' := l) (w' := w) (i' := i) (fun t ht => hL i t ht) (fun t ht => hU t ht),
          absLU_congr (l' := l) (w' := w) (i' := i) (fun t ht => hL i t ht) (fun t ht => hU t ht)]
        have hA := absLU_nonneg l w i i j
        have hG : 1 ≤ (1 + roundoff) ^ i := one_le_pow₀ (by linarith)
        have hB : 1 + 7 * roundoff ≤ (1 + roundoff) ^ 7 := by
          have := one_add_mul_le_pow (a := roundoff) (by linarith) 7
          simpa using this
        rw [pow_add]
        generalize sumLU l w i i j = S at *
        generalize absLU l w i i j = B at *
        generalize (A (π i) j).val = a at *
        generalize (w i j).val = x at *
        have h5 := abs_nonneg (w i c).val
        generalize |(w i c).val| = V at *
        generalize (w i c).val * (mul (div one (w i c)) (w i j)).val = y at *
        have h6 : |x| ≤ |y| + |x - y| := by
          have := abs_sub_abs_le_abs_sub x y
          linarith
        have h7 : |a - (S + y)| ≤ |a - S - x| + |x - y| := by
          have e : a - (S + y) = (a - S - x) + (x - y) := by ring
          rw [e]; exact abs_add_le _ _
        have h8 := abs_nonneg y
        generalize |a - S - x| = E1 at *
        generalize |a - (S + y)| = E2 at *
        generalize |x - y| = E3 at *
        generalize |x| = X at *
        generalize |y| = Y at *
        generalize (i : ℚ) = N at *
        generalize (1 + roundoff) ^ i = G at *
        generalize (1 + roundoff) ^ 7 = H at *
        generalize roundoff = u at *
        generalize tiny = t at *
        have k1 : (G - 1) * X ≤ (G - 1) * (Y + E3) := mul_le_mul_of_nonneg_left h6 (by linarith)
        have k2 : G * E3 ≤ G * (7 * u * Y + 2 * t * V) := mul_le_mul_of_nonneg_left herr (by linarith)
        have k3 : G * (1 + 7 * u) ≤ G * H := mul_le_mul_of_nonneg_left hB (by linarith)
        have k4 : G * (1 + 7 * u) * Y ≤ G * H * Y := mul_le_mul_of_nonneg_right k3 h8
        have k5 : G * 1 ≤ G * H := mul_le_mul_of_nonneg_left (by linarith) (by linarith)
        have k6 : G * B ≤ G * H * B := mul_le_mul_of_nonneg_right (by linarith) hA
        nlinarith
  todo i j hir hi hj hf := by
    have hu := roundoff_pos
    have ht := tiny_pos
    have hU : ∀ t, t < r → stepU r c (w r c) w t j = w t j := fun t ht => by
      rw [stepU, if_neg (by omega), if_neg (by omega)]
    have hL : ∀ i t, t < r → stepL r c (w r c) w l i t = l i t := fun i t ht => by
      rw [stepL, if_neg (by omega)]
    have e0 : stepU r c (w r c) w r j = mul (div one (w r c)) (w r j) := if_pos rfl
    have e1 : stepU r c (w r c) w i j =
        add (w i j) (mul (stepU r c (w r c) w r j) (sub zero (w i c))) := by
      rw [e0, stepU, if_neg (by omega), if_pos (by omega)]
    have e2 : stepL r c (w r c) w l i r = w i c := by
      rw [stepL, if_pos rfl, if_neg (by omega), if_pos (by omega)]
    rw [e1] at hf
    obtain ⟨hwf, hqf, hsf, herr⟩ := update_error (h.valid i c hi hc) hf
    obtain ⟨h1, h2, h3⟩ := h.todo i j (by omega) hi hj hwf
    refine ⟨h1, fun t ht => ?_, ?_⟩
    · by_cases htr : t = r
      · subst htr; rw [e2]; exact ⟨hsf, hqf⟩
      · rw [hU t (by omega), hL i t (by omega)]; exact h2 t (by omega)
    · rw [sumLU_succ, absLU_succ, e2,
        sumLU_congr (l' := l) (w' := w) (i' := i) (fun t ht => hL i t ht) (fun t ht => hU t ht),
        absLU_congr (l' := l) (w' := w) (i' := i) (fun t ht => hL i t ht) (fun t ht => hU t ht), e1]
      have hA := absLU_nonneg l w r i j
      have hG : 1 ≤ (1 + roundoff) ^ r := one_le_pow₀ (by linarith)
      rw [pow_succ]
      push_cast
      exact accumulate h3 herr hA hG (by positivity) hu ht

/-! ### The bound that the invariant of `lu` gives at the end -/

/-- The errors after `r` steps, with the products beyond `r` and beyond the diagonal included. -/
theorem LUErr.bound {n m r : ℕ} {A : ℕ → ℕ → Flt} {π : ℕ → ℕ} {l w : ℕ → ℕ → Flt}
    (he : LUErr n m A r π l w) (hr : r ≤ n) (hlow : ∀ i t, i < t → t < n → l i t = zero)
    (hright : ∀ i t, i < n → t < n → r ≤ t → l i t = if i = t then one else zero) {i j : ℕ} (hin : i < n)
    (hj : j < m) (hf : (w i j).value ≠ none) (hlf : (l i i).value ≠ none) :
    (A (π i) j).value ≠ none ∧
    (∀ t, t < n → (l i t).value ≠ none ∧ ((w t j).value ≠ none ∨ (l i t).value = some 0)) ∧
    |(A (π i) j).val - sumLU l w n i j| ≤ ((1 + roundoff) ^ (n + 7) - 1) * absLU l w n i j +
      (1 + roundoff) ^ n * (n + 2 * |(l i i).val|) * tiny := by
  have hu := roundoff_pos
  have ht := tiny_pos
  have hge : ∀ k, 1 ≤ (1 + roundoff) ^ k := fun k => one_le_pow₀ (by linarith)
  have hmono : ∀ {k k' : ℕ}, k ≤ k' → (1 + roundoff) ^ k ≤ (1 + roundoff) ^ k' := fun hk =>
    pow_le_pow_right₀ (by linarith) hk
  have hinq : (i : ℚ) < n := by exact_mod_cast hin
  have hrq : (r : ℚ) ≤ n := by exact_mod_cast hr
  have hl0 := abs_nonneg (l i i).val
  -- products beyond the diagonal vanish
  have hsub : ∀ f : ℕ → ℚ, (∀ t, (i : ℕ) < t → t < n → f t = 0) →
      ∑ t ∈ Finset.range n, f t = ∑ t ∈ Finset.range (i + 1), f t := fun f hf =>
    (Finset.sum_subset (fun t ht => by simp at ht ⊢; omega)
      (fun t ht hnt => hf t (by simp at hnt; omega) (by simpa using ht))).symm
  have hz : ∀ t, (i : ℕ) < t → t < n → (l i t).val = 0 := fun t h1 h2 => by
    rw [hlow i t h1 h2]; exact val_zero
  have e1 : sumLU l w n i j = sumLU l w (i + 1) i j := hsub _ fun t h1 h2 => by
    rw [hz t h1 h2, zero_mul]
  have e2 : absLU l w n i j = absLU l w (i + 1) i j := hsub _ fun t h1 h2 => by
    rw [hz t h1 h2, zero_mul, abs_zero]
  have hzero : ∀ t, l i t = zero →
      (l i t).value ≠ none ∧ ((w t j).value ≠ none ∨ (l i t).value = some 0) := fun t h => by
    rw [h, value_zero]; exact ⟨by simp, .inr rfl⟩
  rw [e1, e2]
  have hab := absLU_nonneg l w (i + 1) i j
  by_cases hir : (i : ℕ) < r
  · obtain ⟨h1, h2, h3⟩ := he.done i j hir hin hj hf hlf
    refine ⟨h1, fun t htn => ?_, h3.trans (add_le_add ?_ ?_)⟩
    · rcases lt_trichotomy t i with h | h | h
      · exact ⟨(h2 t h).1, .inl (h2 t h).2⟩
      · subst h; exact ⟨hlf, .inl hf⟩
      · exact hzero t (hlow i t h htn)
    · exact mul_le_mul_of_nonneg_right (by linarith [hmono (show (i : ℕ) + 7 ≤ n + 7 by omega)]) hab
    · refine mul_le_mul_of_nonneg_right ?_ ht.le
      have : (0 : ℚ) ≤ i := by positivity
      exact mul_le_mul (hmono hin.le) (by linarith) (by positivity) (by linarith [hge n])
  · obtain ⟨h1, h2, h3⟩ := he.todo i j (by omega) hin hj hf
    have hone : (l i i).val = 1 := by
      rw [hright i i hin hin (by omega), if_pos rfl]; exact val_one
    have hz2 : ∀ t, r ≤ t → t < (i : ℕ) → (l i t).val = 0 := fun t h1 h2 => by
      rw [hright i t hin (by omega) h1, if_neg (by omega)]; exact val_zero
    have hsub2 : ∀ f : ℕ → ℚ, (∀ t, r ≤ t → t < (i : ℕ) → f t = 0) →
        ∑ t ∈ Finset.range i, f t = ∑ t ∈ Finset.range r, f t := fun f hf =>
      (Finset.sum_subset (fun t ht => by simp at ht ⊢; omega)
        (fun t ht hnt => hf t (by simpa using hnt) (by simpa using ht))).symm
    have e3 : sumLU l w i i j = sumLU l w r i j := hsub2 _ fun t h1 h2 => by
      rw [hz2 t h1 h2, zero_mul]
    have e4 : absLU l w i i j = absLU l w r i j := hsub2 _ fun t h1 h2 => by
      rw [hz2 t h1 h2, zero_mul, abs_zero]
    rw [sumLU_succ, absLU_succ, hone, one_mul, e3, e4]
    rw [absLU_succ, hone, one_mul, e4] at hab
    refine ⟨h1, fun t htn => ?_, ?_⟩
    · by_cases htr : t < r
      · exact ⟨(h2 t htr).1, .inl (h2 t htr).2⟩
      · by_cases hti : i = t
        · subst hti; exact ⟨hlf, .inl hf⟩
        · exact hzero t (by rw [hright i t hin htn (by omega), if_neg hti])
    · rw [sub_sub] at h3
      refine h3.trans (add_le_add ?_ ?_)
      · exact mul_le_mul_of_nonneg_right (by linarith [hmono (show r ≤ n + 7 by omega)]) hab
      · refine mul_le_mul_of_nonneg_right ?_ ht.le
        exact mul_le_mul (hmono hr) (by linarith [abs_nonneg (1 : ℚ)]) (by positivity)
          (by linarith [hge n])

end Flt
end Verif
