import Verif.Proofs.LUError

/-!
# Rounding errors of `row_echelon` and `to_rref` over `f32` and `f64`

Both matrices of a row equivalent form undergo the same row operations, so that they are treated as the left
and the right part of one matrix with `m + n` columns.
-/

namespace Verif
open Res LinAlg
namespace Flt
open Fmt
variable [Fmt]

/-! ### Forms -/

/-- `w` gives the entries of `b` and, in the columns from `m` on, those of `p`. -/
structure FormHas [RField Flt] (f : Form Flt) (n m : ℕ) (w : ℕ → ℕ → Flt) : Prop where
  b : f.b.Has n m w
  p : f.p.Has n n (fun i j => w i (m + j))

theorem FormHas.congr [RField Flt] {f : Form Flt} {n m : ℕ} {w w' : ℕ → ℕ → Flt} (h : FormHas f n m w)
    (hw : ∀ i j, i < n → w i j = w' i j) : FormHas f n m w' :=
  ⟨h.b.congr fun i j hi _ => hw i j hi, h.p.congr fun i j hi _ => hw i (m + j) hi⟩

section ops
variable (b : Build) (powi : Flt → Int → Flt) {f : Form Flt} {n m : ℕ} {w : ℕ → ℕ → Flt}
  {E : Panic → Prop}

theorem FormHas.permute {s t : ℕ} (hs : s < n) (ht : t < n) :
    letI := field b powi
    FormHas f n m w →
      Spec E (f.permuteRows s t) (fun f' => FormHas f' n m (fun i j => w (Equiv.swap s t i) j)) := by
  let _ := field b powi
  intro h
  unfold Form.permuteRows
  refine (h.p.permuteRows hs ht).bind fun p' hp => ?_
  refine (h.b.permuteRows hs ht).bind fun b' hb => ?_
  exact ⟨hb, hp⟩

theorem FormHas.scale {r : ℕ} (x : Flt) (hr : r < n) :
    letI := field b powi
    FormHas f n m w → Spec E (f.scaleRow r x)
      (fun f' => FormHas f' n m (fun i j => if i = r then mul x (w i j) else w i j)) := by
  let _ := field b powi
  intro h
  unfold Form.scaleRow
  refine (has_scaleRow b powi x hr h.p).bind fun p' hp => ?_
  refine (has_scaleRow b powi x hr h.b).bind fun b' hb => ?_
  exact ⟨hb, hp⟩

theorem FormHas.replaceStep {r c t : ℕ} (hr : r < n) (ht : t < n) (hrt : r ≠ t) (hc : c < m) :
    letI := field b powi
    FormHas f n m w → Spec E (Form.replaceStep r c f t) (fun f' => FormHas f' n m
      (fun i j => if i = t then add (w i j) (mul (w r j) (sub zero (w t c))) else w i j)) := by
  let _ := field b powi
  intro h
  unfold Form.replaceStep
  rw [h.b.get ht hc, bind_ok]
  refine Spec.bind (P := fun y => y = sub zero (w t c)) rfl ?_
  rintro _ rfl
  refine (has_replaceRow b powi (sub zero (w t c)) hr ht hrt h.p).bind fun p' hp => ?_
  refine Spec.bind (P := fun y => y = sub zero (w t c)) rfl ?_
  rintro _ rfl
  refine (has_replaceRow b powi (sub zero (w t c)) hr ht hrt h.b).bind fun b' hb => ?_
  exact ⟨hb, hp⟩

theorem FormHas.under {r c : ℕ} (hr : r < n) (hc : c < m) :
    letI := field b powi
    FormHas f n m w → Spec E (f.replaceColUnderRow r c) (fun f' => FormHas f' n m
      (fun i j => if r < i then add (w i j) (mul (w r j) (sub zero (w i c))) else w i j)) := by
  let _ := field b powi
  intro h
  unfold Form.replaceColUnderRow
  rw [h.b.rows]
  refine (foldlM_range'_spec (fun k (f' : Form Flt) => FormHas f' n m
    (fun i j => if r < i ∧ i < k then add (w i j) (mul (w r j) (sub zero (w i c))) else w i j))
    ?_ ?_).imp fun f' hf' => hf'.congr fun i j hi => ?_
  · exact h.congr fun i j _ => by rw [if_neg (by omega)]
  · intro k f' hk hk' hf'
    refine (hf'.replaceStep b powi hr (show k < n by omega) (by omega) hc).imp fun f'' hf'' =>
      hf''.congr fun i j _ => ?_
    by_cases hi : i = k
    · subst hi
      rw [if_pos rfl, if_neg (by omega), if_neg (by omega), if_neg (by omega), if_pos (by omega)]
    · rw [if_neg hi]
      have : (r < i ∧ i < k) ↔ (r < i ∧ i < k + 1) := by omega
      simp only [this]
  · have : (r < i ∧ i < r + 1 + (n - (r + 1))) ↔ r < i := by omega
    simp only [this]

theorem FormHas.above {r c : ℕ} (hr : r < n) (hc : c < m) :
    letI := field b powi
    FormHas f n m w → Spec E (f.replaceColAboveRow r c) (fun f' => FormHas f' n m
      (fun i j => if i < r then add (w i j) (mul (w r j) (sub zero (w i c))) else w i j)) := by
  let _ := field b powi
  intro h
  unfold Form.replaceColAboveRow
  refine foldlM_range_spec (fun k (f' : Form Flt) => FormHas f' n m
    (fun i j => if i < k then add (w i j) (mul (w r j) (sub zero (w i c))) else w i j)) ?_ ?_
  · exact h.congr fun i j _ => by rw [if_neg (by omega)]
  · intro k f' hk hf'
    refine (hf'.replaceStep b powi hr (show k < n by omega) (by omega) hc).imp fun f'' hf'' =>
      hf''.congr fun i j _ => ?_
    by_cases hi : i = k
    · subst hi
      rw [if_pos rfl, if_neg (by omega), if_neg (by omega), if_neg (by omega), if_pos (by omega)]
    · rw [if_neg hi]
      have : i < k ↔ i < k + 1 := by omega
      simp only [this]

theorem FormHas.step {r c s : ℕ} {v : Flt} (hr : r < n) (hc : c < m) (hs : s < n) :
    letI := field b powi
    FormHas f n m w → Spec E (do
      let f ← f.permuteRows r s
      let s ← RField.div RField.one v
      let f ← f.scaleRow r s
      f.replaceColUnderRow r c)
      (fun f' => FormHas f' n m (stepU r c v fun i j => w (Equiv.swap r s i) j)) := by
  let _ := field b powi
  intro h
  refine (h.permute b powi hr hs).bind fun f₁ h₁ => ?_
  refine Spec.bind (P := fun y => y = div one v) rfl ?_
  rintro _ rfl
  refine (h₁.scale b powi (div one v) hr).bind fun f₂ h₂ => ?_
  refine (h₂.under b powi hr hc).imp fun f₃ h₃ => h₃.congr fun i j _ => ?_
  unfold stepU
  by_cases hi : i = r
  · subst hi; simp
  · by_cases hlt : r < i
    · rw [if_pos hlt, if_neg hi, if_neg hi, if_pos rfl, if_neg hi, if_pos hlt]
    · rw [if_neg hlt, if_neg hi, if_neg hi, if_neg hlt]

end ops

/-! ### Clearing the columns above the pivots -/

/-- The rows from `k` on have been subtracted from those above them, with the multipliers `V`. -/
structure RrefErr (n m : ℕ) (B : ℕ → ℕ → Flt) (k : ℕ) (V w : ℕ → ℕ → Flt) : Prop where
  valid : ∀ i j, i < n → j < m → (w i j).Valid
  zero : ∀ i t, t ≤ i ∨ t < k → V i t = zero
  err : ∀ i j, i < n → j < m → (w i j).value ≠ none →
    (B i j).value ≠ none ∧
    (∀ t, t < n → (V i t).value ≠ none ∧ ((w t j).value ≠ none ∨ (V i t).value = some 0)) ∧
    |(B i j).val - sumLU V w n i j - (w i j).val| ≤
      ((1 + roundoff) ^ (n - k) - 1) * (absLU V w n i j + |(w i j).val|) +
        (1 + roundoff) ^ (n - k) * (n - k : ℕ) * tiny

theorem RrefErr.skip {n m k : ℕ} {B V w : ℕ → ℕ → Flt} (h : RrefErr n m B (k + 1) V w) :
    RrefErr n m B k V w where
  valid := h.valid
  zero i t ht := h.zero i t (by omega)
  err i j hi hj hf := by
    obtain ⟨h1, h2, h3⟩ := h.err i j hi hj hf
    refine ⟨h1, h2, h3.trans ?_⟩
    have hu := roundoff_pos
    have ht := tiny_pos
    have hA := absLU_nonneg V w n i j
    have hw := abs_nonneg (w i j).val
    have hG : (1 + roundoff) ^ (n - (k + 1)) ≤ (1 + roundoff) ^ (n - k) :=
      pow_le_pow_right₀ (by linarith) (by omega)
    have hN : ((n - (k + 1) : ℕ) : ℚ) ≤ (n - k : ℕ) := by exact_mod_cast (by omega)
    refine add_le_add (mul_le_mul_of_nonneg_right (by linarith) (by linarith))
      (mul_le_mul_of_nonneg_right ?_ ht.le)
    exact mul_le_mul hG hN (by positivity) (by positivity)

theorem RrefErr.step {n m r c : ℕ} {B V w : ℕ → ℕ → Flt} (h : RrefErr n m B (r + 1) V w) (hr : r < n)
    (hc : c < m) :
    RrefErr n m B r (fun i t => if t = r ∧ i < r then w i c else V i t)
      (fun i j => if i < r then add (w i j) (mul (w r j) (sub Flt.zero (w i c))) else w i j) where
  valid i j hi hj := by
    split
    · exact valid_add _ _
    · exact h.valid i j hi hj
  zero i t ht := by
    rw [if_neg (by omega)]
    exact h.zero i t (by omega)
  err i j hi hj hf := by
    have hz : ∀ t, t < r → V i t = Flt.zero := fun t ht => h.zero i t (by omega)
    by_cases hir : i < r
    · simp only [if_pos hir] at hf ⊢
      obtain ⟨hwf, hqf, hsf, herr⟩ := update_error (h.valid i c hi hc) hf
      obtain ⟨h1, h2, h3⟩ := h.err i j hi hj hwf
      have hVr : V i r = Flt.zero := h.zero i r (by omega)
      refine ⟨h1, fun t ht => ?_, ?_⟩
      · by_cases htr : t = r
        · subst htr
          rw [if_pos ⟨rfl, hir⟩, if_neg (by omega)]
          exact ⟨hsf, .inl hqf⟩
        · rw [if_neg (by tauto)]
          by_cases hlt : t < r
          · rw [hz t hlt, value_zero]; exact ⟨by simp, .inr rfl⟩
          · rw [if_neg hlt]; exact h2 t ht
      · have key : ∀ t, ((if t = r ∧ i < r then w i c else V i t).val *
            (if t < r then add (w t j) (mul (w r j) (sub Flt.zero (w t c))) else w t j).val) =
            (V i t).val * (w t j).val + if t = r then (w i c).val * (w r j).val else 0 := by
          intro t
          by_cases htr : t = r
          · subst htr
            rw [if_pos ⟨rfl, hir⟩, if_neg (by omega), if_pos rfl, hVr, val_zero]; ring
          · rw [if_neg (by tauto), if_neg htr]
            by_cases hlt : t < r
            · rw [hz t hlt, val_zero]; ring
            · rw [if_neg hlt]; ring
        have e1 : sumLU (fun i t => if t = r ∧ i < r then w i c else V i t)
            (fun i j => if i < r then add (w i j) (mul (w r j) (sub Flt.zero (w i c))) else w i j)
            n i j = sumLU V w n i j + (w i c).val * (w r j).val := by
          unfold sumLU
          rw [Finset.sum_congr rfl fun t _ => key t, Finset.sum_add_distrib, Finset.sum_ite_eq',
            if_pos (Finset.mem_range.mpr hr)]
        have e2 : absLU (fun i t => if t = r ∧ i < r then w i c else V i t)
            (fun i j => if i < r then add (w i j) (mul (w r j) (sub Flt.zero (w i c))) else w i j)
            n i j = absLU V w n i j + |(w i c).val * (w r j).val| := by
          unfold absLU
          have : ∀ t, |(if t = r ∧ i < r then w i c else V i t).val *
              (if t < r then add (w t j) (mul (w r j) (sub Flt.zero (w t c))) else w t j).val| =
              |(V i t).val * (w t j).val| + if t = r then |(w i c).val * (w r j).val| else 0 := by
            intro t
            rw [key t]
            by_cases htr : t = r
            · subst htr; simp [hVr, val_zero]
            · simp [htr]
          rw [Finset.sum_congr rfl fun t _ => this t, Finset.sum_add_distrib, Finset.sum_ite_eq',
            if_pos (Finset.mem_range.mpr hr)]
        rw [e1, e2]
        have hu := roundoff_pos
        have hk : n - r = (n - (r + 1)) + 1 := by omega
        rw [hk, pow_succ]
        push_cast
        exact accumulate h3 herr (absLU_nonneg V w n i j) (one_le_pow₀ (by linarith)) (by positivity) hu
          tiny_pos
    · simp only [if_neg hir] at hf ⊢
      obtain ⟨h1, h2, h3⟩ := h.skip.err i j hi hj hf
      have e : ∀ t, ((if t = r ∧ i < r then w i c else V i t).val *
          (if t < r then add (w t j) (mul (w r j) (sub Flt.zero (w t c))) else w t j).val) =
          (V i t).val * (w t j).val := by
        intro t
        rw [if_neg (by omega)]
        by_cases hlt : t < r
        · rw [hz t hlt, val_zero]; ring
        · rw [if_neg hlt]
      refine ⟨h1, fun t ht => ?_, ?_⟩
      · rw [if_neg (by omega)]
        by_cases hlt : t < r
        · rw [hz t hlt, value_zero]; exact ⟨by simp, .inr rfl⟩
        · rw [if_neg hlt]; exact h2 t ht
      · have e1 : sumLU (fun i t => if t = r ∧ i < r then w i c else V i t)
            (fun i j => if i < r then add (w i j) (mul (w r j) (sub Flt.zero (w i c))) else w i j)
            n i j = sumLU V w n i j := Finset.sum_congr rfl fun t _ => e t
        have e2 : absLU (fun i t => if t = r ∧ i < r then w i c else V i t)
            (fun i j => if i < r then add (w i j) (mul (w r j) (sub Flt.zero (w i c))) else w i j)
            n i j = absLU V w n i j := Finset.sum_congr rfl fun t _ => congrArg _ (e t)
        rw [e1, e2]
        exact h3

end Flt
end Verif
