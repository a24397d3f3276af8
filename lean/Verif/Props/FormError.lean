import Verif.Proofs.FormError
import Verif.Props.LUError

/-!
# Rounding errors of `row_echelon` and `to_rref` over `f32` and `f64` (C138, C139)
-/

namespace Verif
open Res LinAlg
namespace Flt
open Fmt
variable [Fmt]

/-- The matrix `A` with the identity on its right. -/
def augment (m : ℕ) (A : ℕ → ℕ → Flt) (i j : ℕ) : Flt :=
  if j < m then A i j else if i = j - m then one else zero

/-- `lu` and `row_echelon` side by side. -/
theorem rowEchelonFor_error (b : Build) (powi : Flt → Int → Flt) {n m : ℕ} {A : ℕ → ℕ → Flt}
    (k c r : ℕ) {lu lu' : LUInternal Flt} {f f' : Form Flt} {π : ℕ → ℕ} {l w : ℕ → ℕ → Flt}
    (hcl : c + k ≤ m) (hrn : r ≤ n) (he : LUErr n (m + n) A r π l w) :
    letI := field b powi
    lu.Has n m r π l → lu.u.Has n m w → FormHas f n m w → lu.u = f.b →
    Mat.luFor n (List.range' c k) r lu = .ok lu' →
    Mat.rowEchelonFor n (List.range' c k) r f = .ok f' →
    ∃ π' l' w' r', r' ≤ n ∧ lu'.Has n m r' π' l' ∧ lu'.u.Has n m w' ∧ FormHas f' n m w' ∧
        LUErr n (m + n) A r' π' l' w' := by
  let _ := field b powi
  have := tame b powi
  induction k generalizing c lu f l w r π with
  | zero =>
    intro h hw hf _ h1 h2
    cases h1; cases h2
    exact ⟨π, l, w, r, hrn, h, hw, hf, he⟩
  | succ k ih =>
    intro h hw hf huf h1 h2
    rw [List.range'_succ, Mat.luFor] at h1
    rw [List.range'_succ, Mat.rowEchelonFor] at h2
    by_cases hrn' : r ≥ n
    · rw [if_pos hrn'] at h1 h2
      cases h1; cases h2
      exact ⟨π, l, w, r, hrn, h, hw, hf, he⟩
    · rw [if_neg hrn'] at h1 h2
      push Not at hrn'
      have hc : c < m := by omega
      rw [bind_eq_ok] at h1 h2
      obtain ⟨o, ho, h1⟩ := h1
      obtain ⟨o', ho', h2⟩ := h2
      rw [huf, ho'] at ho
      cases ho
      have hst := hf.b.getStable (E := (· = .unwrapNone)) hc hrn'
      rw [ho'] at hst
      rcases o with _ | ⟨s, v⟩
      · exact ih (c + 1) r (by omega) hrn he h hw hf huf h1 h2
      · obtain ⟨hs, hsn, hv, hne⟩ := hst
        have hve : epsilonEquals v zero = false := Res.ok.inj hne
        have he' := (he.swap hrn' hs hsn).step hrn' (show c < m + n by omega)
        simp only [Equiv.swap_apply_left] at he'
        rw [← hv] at he'
        have hl := lu_step b powi (E := (· = .unwrapNone)) hrn' hc hs hsn hve h hw
        have hr := FormHas.step b powi (E := (· = .unwrapNone)) (v := v) hrn' hc hsn hf
        have h1' : (do
            let lu ← lu.permute r s
            let lu ← lu.scaleRow r v
            lu.replaceColUnderRow r c) >>= (fun lu => Mat.luFor n (List.range' (c + 1) k) (r + 1) lu) =
            .ok lu' := by simpa only [bind_assoc] using h1
        have h2' : (do
            let f ← f.permuteRows r s
            let s ← RField.div RField.one v
            let f ← f.scaleRow r s
            f.replaceColUnderRow r c) >>=
              (fun f => Mat.rowEchelonFor n (List.range' (c + 1) k) (r + 1) f) = .ok f' := by
          simpa only [bind_assoc] using h2
        rw [bind_eq_ok] at h1' h2'
        obtain ⟨lu₁, e1, h1'⟩ := h1'
        obtain ⟨f₁, e2, h2'⟩ := h2'
        rw [e1] at hl
        rw [e2] at hr
        refine ih (c + 1) (r + 1) (by omega) hrn' he' hl.1 hl.2 hr ?_ h1' h2'
        have hb := hr.b
        have hu := hl.2
        have hent : lu₁.u.entries = f₁.b.entries := by
          apply List.ext_getElem?
          intro q
          by_cases hq : q < n * m
          · have hm : 0 < m := by omega
            have hd : q = q / m * m + q % m := (Nat.div_add_mod' q m).symm
            have hqn : q / m < n := Nat.div_lt_of_lt_mul (by rwa [Nat.mul_comm])
            rw [hd, hb.entry _ _ hqn (Nat.mod_lt _ hm), hu.entry _ _ hqn (Nat.mod_lt _ hm)]
          · rw [List.getElem?_eq_none (by rw [hu.len]; omega),
              List.getElem?_eq_none (by rw [hb.len]; omega)]
        have e3 := hu.rows.trans hb.rows.symm
        have e4 := hu.cols.trans hb.cols.symm
        cases hx : lu₁.u with
        | mk a1 a2 a3 =>
          cases hy : f₁.b with
          | mk b1 b2 b3 =>
            rw [hx, hy] at hent e3 e4
            simp_all

/-- C138. Backward error of `row_echelon` over `f32` and `f64`, in both builds.  With the `p` and `l` of `lu` and up to
the errors given, `p M` is the product of `l` and the computed `b`, and `p` is the product of `l` and the
computed transformation `q`, wherever the entries of `b` and `q` and the `l(i, i)` are finite. -/
theorem C138_row_echelon (b : Build) (powi : Flt → Int → Flt) {M : Mat Flt} {n m : ℕ}
    {A : ℕ → ℕ → Flt} (hA : ∀ i j, i < n → j < m → (A i j).Valid)
    (hnn : n * n < 18446744073709551616) :
    letI := field b powi
    M.Has n m A → ∀ d f, M.lu = .ok d → M.rowEchelon = .ok f →
    ∃ (π : Equiv.Perm (Fin n)) (l B Q : ℕ → ℕ → Flt),
      (∀ i j : Fin n, d.p.get i j = .ok (if π i = j then one else zero)) ∧
      d.l.Has n n l ∧ f.b.Has n m B ∧ f.p.Has n n Q ∧
      ∀ i : Fin n, (l i i).value ≠ none →
        (∀ j, j < m → (B i j).value ≠ none →
          (A (π i) j).value ≠ none ∧
          (∀ t, t < n → (l i t).value ≠ none ∧ ((B t j).value ≠ none ∨ (l i t).value = some 0)) ∧
          |(A (π i) j).val - ∑ t ∈ Finset.range n, (l i t).val * (B t j).val| ≤
            ((1 + 1 / 2 ^ prec) ^ (n + 7) - 1) *
                ∑ t ∈ Finset.range n, |(l i t).val * (B t j).val| +
              (1 + 1 / 2 ^ prec) ^ n * (n + 2 * |(l i i).val|) * tiny) ∧
        (∀ j : Fin n, (Q i j).value ≠ none →
          (∀ t, t < n → (l i t).value ≠ none ∧ ((Q t j).value ≠ none ∨ (l i t).value = some 0)) ∧
          |(if π i = j then 1 else 0) - ∑ t ∈ Finset.range n, (l i t).val * (Q t j).val| ≤
            ((1 + 1 / 2 ^ prec) ^ (n + 7) - 1) *
                ∑ t ∈ Finset.range n, |(l i t).val * (Q t j).val| +
              (1 + 1 / 2 ^ prec) ^ n * (n + 2 * |(l i i).val|) * tiny) := by
  let _ := field b powi
  intro h d f hd hf
  unfold Mat.lu at hd
  unfold Mat.rowEchelon at hf
  rw [h.rows, h.cols, List.range_eq_range' (n := m)] at hd hf
  rw [bind_eq_ok] at hd
  obtain ⟨lu', hlu, hd⟩ := hd
  have hid : (Mat.identity n : Mat Flt).Has n n (fun i j => if i = j then one else zero) :=
    Mat.has_of_box h.rows_lt h.rows_lt hnn
  have he : LUErr n (m + n) (augment m A) 0 (fun i => i) (fun i j => if i = j then one else zero)
      (augment m A) := by
    refine ⟨fun i j hi hj => ?_, fun i _ hi => absurd hi (by omega), fun i j _ _ _ hf =>
      ⟨hf, fun t ht => absurd ht (by omega), by simp [sumLU]⟩⟩
    unfold augment
    split
    · exact hA i j hi (by assumption)
    · split
      · fmt_decide
      · exact valid_zero false
  have haug : M.Has n m (augment m A) := h.congr fun i j _ hj => (if_pos hj).symm
  obtain ⟨π, l, w, r, hr, h', hw, hfm, he⟩ := rowEchelonFor_error b powi m 0 0 (by omega) (by omega) he
    ⟨by simp, fun i hi => by simp [hi], ⟨fun i hi => hi, fun i j _ _ h => h⟩,
      hid, h.shape, fun i j hij _ => if_neg (by omega),
      fun i j _ _ _ => rfl, fun i hi => absurd hi (by omega)⟩ haug
    ⟨haug, hid.congr fun i j _ _ => by simp [augment]⟩ rfl hlu hf
  obtain ⟨σ, hσ⟩ := h'.perm.exists_perm
  cases hd
  have hp : (Mat.permutationFromVec lu'.p : Mat Flt).Has n n
      (fun i j => if π i = j then one else zero) := by
    unfold Mat.permutationFromVec
    rw [h'.p_len]
    refine (Mat.has_of_box h.rows_lt h.rows_lt hnn).congr fun i j hi _ => ?_
    simp only [h'.p_get i hi, Option.some.injEq]
    rfl
  refine ⟨σ, l, w, fun i j => w i (m + j), fun i j => ?_, h'.l_has, hfm.b, hfm.p,
    fun i hlf => ⟨fun j hj hf => ?_, fun j hf => ?_⟩⟩
  · rw [hp.get i.2 j.2, ← hσ]
    simp [Fin.ext_iff]
  · have := he.bound hr h'.lower h'.right i.2 (show j < m + n by omega) hf hlf
    rw [← hσ, augment, if_pos hj] at this
    exact this
  · have := he.bound hr h'.lower h'.right i.2 (show m + j < m + n by omega) hf hlf
    rw [← hσ, augment, if_neg (by omega)] at this
    have e : (if (σ i : ℕ) = m + j - m then one else zero : Flt).val = if σ i = j then 1 else 0 := by
      have : m + (j : ℕ) - m = j := by omega
      rw [this]
      by_cases h : σ i = j
      · rw [if_pos (by rw [h]), if_pos h, val_one]
      · rw [if_neg (fun h' => h (Fin.ext h')), if_neg h, val_zero]
    rw [e] at this
    exact this.2

omit [Fmt] in
/-- Two factorisations with errors `e j` and `e' k` give a residual. -/
theorem residual_bound {n : ℕ} {l B A : ℕ → ℚ} {Q : ℕ → ℕ → ℚ} {x : ℕ → ℚ} {a e g : ℚ}
    (ha : a = ∑ k ∈ Finset.range n, x k * A k)
    (h1 : |a - ∑ t ∈ Finset.range n, l t * B t| ≤ g * (∑ t ∈ Finset.range n, |l t * B t|) + e)
    (h2 : ∀ k, k < n → |x k - ∑ t ∈ Finset.range n, l t * Q t k| ≤
      g * (∑ t ∈ Finset.range n, |l t * Q t k|) + e) :
    |∑ t ∈ Finset.range n, l t * (B t - ∑ k ∈ Finset.range n, Q t k * A k)| ≤
      g * (∑ t ∈ Finset.range n, |l t| * (|B t| + ∑ k ∈ Finset.range n, |Q t k * A k|)) +
        e * (1 + ∑ k ∈ Finset.range n, |A k|) := by
  have e1 : ∑ t ∈ Finset.range n, l t * (B t - ∑ k ∈ Finset.range n, Q t k * A k) =
      -(a - ∑ t ∈ Finset.range n, l t * B t) +
        ∑ k ∈ Finset.range n, (x k - ∑ t ∈ Finset.range n, l t * Q t k) * A k := by
    simp only [mul_sub, Finset.sum_sub_distrib, sub_mul, ← ha, Finset.mul_sum, Finset.sum_mul]
    rw [Finset.sum_comm (f := fun t k => l t * (Q t k * A k))]
    simp only [mul_assoc]
    ring
  have e2 : ∑ t ∈ Finset.range n, |l t| * (|B t| + ∑ k ∈ Finset.range n, |Q t k * A k|) =
      ∑ t ∈ Finset.range n, |l t * B t| +
        ∑ k ∈ Finset.range n, (∑ t ∈ Finset.range n, |l t * Q t k|) * |A k| := by
    simp only [mul_add, Finset.sum_add_distrib, Finset.mul_sum, Finset.sum_mul, abs_mul]
    rw [Finset.sum_comm (f := fun t k => |l t| * (|Q t k| * |A k|))]
    simp only [mul_assoc]
  rw [e1, e2]
  refine (abs_add_le _ _).trans ?_
  rw [abs_neg]
  have h3 : |∑ k ∈ Finset.range n, (x k - ∑ t ∈ Finset.range n, l t * Q t k) * A k| ≤
      ∑ k ∈ Finset.range n, (g * (∑ t ∈ Finset.range n, |l t * Q t k|) + e) * |A k| := by
    refine (Finset.abs_sum_le_sum_abs _ _).trans (Finset.sum_le_sum fun k hk => ?_)
    rw [abs_mul]
    exact mul_le_mul_of_nonneg_right (h2 k (Finset.mem_range.mp hk)) (abs_nonneg _)
  refine (add_le_add h1 h3).trans (le_of_eq ?_)
  simp only [add_mul, mul_add, Finset.sum_add_distrib, Finset.mul_sum, Finset.sum_mul, mul_assoc, mul_one]
  ring

/-- C138. The residual of `row_echelon` over `f32` and `f64`: with the `l` of `lu`, the computed `b` and the computed
transformation `q`, the product of `l` and the exact `b - q M` is small compared with `|l| (|b| + |q| |M|)`,
in each row in which `b`, `q` and `l(i, i)` are finite. -/
theorem C138_residual (b : Build) (powi : Flt → Int → Flt) {M : Mat Flt} {n m : ℕ}
    {A : ℕ → ℕ → Flt} (hA : ∀ i j, i < n → j < m → (A i j).Valid)
    (hnn : n * n < 18446744073709551616) :
    letI := field b powi
    M.Has n m A → ∀ d f, M.lu = .ok d → M.rowEchelon = .ok f →
    ∃ l B Q : ℕ → ℕ → Flt, d.l.Has n n l ∧ f.b.Has n m B ∧ f.p.Has n n Q ∧
      ∀ i j, i < n → j < m → (l i i).value ≠ none → (B i j).value ≠ none →
        (∀ k, k < n → (Q i k).value ≠ none) →
        |∑ t ∈ Finset.range n, (l i t).val *
            ((B t j).val - ∑ k ∈ Finset.range n, (Q t k).val * (A k j).val)| ≤
          ((1 + 1 / 2 ^ prec) ^ (n + 7) - 1) * ∑ t ∈ Finset.range n, |(l i t).val| *
            (|(B t j).val| + ∑ k ∈ Finset.range n, |(Q t k).val * (A k j).val|) +
          (1 + 1 / 2 ^ prec) ^ n * (n + 2 * |(l i i).val|) * tiny *
            (1 + ∑ k ∈ Finset.range n, |(A k j).val|) := by
  let _ := field b powi
  intro h d f hd hf
  obtain ⟨π, l, B, Q, -, hl, hB, hQ, key⟩ := C138_row_echelon b powi hA hnn h d f hd hf
  refine ⟨l, B, Q, hl, hB, hQ, fun i j hi hj hlf hBf hQf => ?_⟩
  obtain ⟨k1, k2⟩ := key ⟨i, hi⟩ hlf
  refine residual_bound (x := fun k => if (π ⟨i, hi⟩ : ℕ) = k then 1 else 0) ?_ (k1 j hj hBf).2.2
    fun k hk => ?_
  · simp only [ite_mul, one_mul, zero_mul]
    rw [Finset.sum_ite_eq, if_pos (Finset.mem_range.mpr (π ⟨i, hi⟩).2)]
  · have := (k2 ⟨k, hk⟩ (hQf k hk)).2
    simpa only [Fin.ext_iff] using this

/-- C139. Backward error of `to_rref` over `f32` and `f64`, in both builds.  There is a matrix `V`, upper triangular
with ones on the diagonal, such that `b` and `p` before the call are, up to the errors given, the products of
`V` and the `b` and `p` after the call, wherever the latter are finite. -/
theorem C139_to_rref (b : Build) (powi : Flt → Int → Flt) {f : Form Flt} {n m : ℕ}
    {B P : ℕ → ℕ → Flt} (hB : ∀ i j, i < n → j < m → (B i j).Valid)
    (hP : ∀ i j, i < n → j < n → (P i j).Valid) :
    letI := field b powi
    f.b.Has n m B → f.p.Has n n P →
    Spec (· = .unwrapNone) f.toRref (fun g => ∃ (V : ℕ → ℕ → ℚ) (R Q : ℕ → ℕ → Flt),
      g.b.Has n m R ∧ g.p.Has n n Q ∧
      (∀ i, V i i = 1) ∧ (∀ i t, t < i → V i t = 0) ∧
      ∀ i, i < n →
        (∀ j, j < m → (R i j).value ≠ none →
          (B i j).value ≠ none ∧ (∀ t, t < n → (R t j).value ≠ none ∨ V i t = 0) ∧
          |(B i j).val - ∑ t ∈ Finset.range n, V i t * (R t j).val| ≤
            ((1 + 1 / 2 ^ prec) ^ (n - 1) - 1) * ∑ t ∈ Finset.range n, |V i t * (R t j).val| +
              (1 + 1 / 2 ^ prec) ^ (n - 1) * (n - 1 : ℕ) * tiny) ∧
        (∀ j, j < n → (Q i j).value ≠ none →
          (P i j).value ≠ none ∧ (∀ t, t < n → (Q t j).value ≠ none ∨ V i t = 0) ∧
          |(P i j).val - ∑ t ∈ Finset.range n, V i t * (Q t j).val| ≤
            ((1 + 1 / 2 ^ prec) ^ (n - 1) - 1) * ∑ t ∈ Finset.range n, |V i t * (Q t j).val| +
              (1 + 1 / 2 ^ prec) ^ (n - 1) * (n - 1 : ℕ) * tiny)) := by
  let _ := field b powi
  have := tame b powi
  intro hfb hfp
  let w₀ : ℕ → ℕ → Flt := fun i j => if j < m then B i j else P i (j - m)
  have hf : FormHas f n m w₀ := ⟨hfb.congr fun i j _ hj => (if_pos hj).symm,
    hfp.congr fun i j _ _ => by simp [w₀]⟩
  have hv : ∀ i j, i < n → j < m + n → (w₀ i j).Valid := fun i j hi hj => by
    simp only [w₀]
    split
    · exact hB i j hi (by assumption)
    · exact hP i _ hi (by omega)
  have h0 : RrefErr n (m + n) w₀ n (fun _ _ => zero) w₀ :=
    ⟨hv, fun _ _ _ => rfl, fun i j hi hj hf => ⟨hf, fun t _ => by
      rw [value_zero]; exact ⟨by simp, .inr rfl⟩, by simp [sumLU, val_zero]⟩⟩
  unfold Form.toRref
  rw [hfb.rows]
  refine Spec.imp (P := fun g => ∃ V w, FormHas g n m w ∧ RrefErr n (m + n) w₀ 1 V w) ?_ ?_
  · rcases Nat.eq_zero_or_pos n with rfl | hn
    · refine ⟨fun _ _ => zero, w₀, hf, ⟨hv, fun _ _ _ => rfl, fun i j hi => absurd hi (by omega)⟩⟩
    · refine foldlM_range'_rev_spec (fun k (g : Form Flt) => ∃ V w, FormHas g n m w ∧
        RrefErr n (m + n) w₀ k V w) ?_ ?_
      · rw [show 1 + (n - 1) = n by omega]
        exact ⟨_, _, hf, h0⟩
      · rintro r g hr hrn ⟨V, w, hg, hw⟩
        refine (hg.b.firstNonzero (show r < n by omega)).bind ?_
        rintro (_ | c) hc
        · exact ⟨V, w, hg, hw.skip⟩
        · have hcm := (hc c rfl).1
          refine (hg.above b powi (show r < n by omega) hcm).imp fun g' hg' => ?_
          exact ⟨_, _, hg', hw.step (by omega) (by omega)⟩
  · rintro g ⟨V, w, hg, hw⟩
    have hz : ∀ i t, t ≤ i → (V i t).val = 0 := fun i t ht => by
      rw [hw.zero i t (.inl ht), val_zero]
    -- the diagonal
    let V' : ℕ → ℕ → ℚ := fun i t => (V i t).val + if t = i then 1 else 0
    have hsum : ∀ i j, i < n → ∑ t ∈ Finset.range n, V' i t * (w t j).val =
        sumLU V w n i j + (w i j).val := fun i j hi => by
      simp only [V', add_mul, Finset.sum_add_distrib, ite_mul, one_mul, zero_mul]
      rw [Finset.sum_ite_eq', if_pos (Finset.mem_range.mpr hi)]
      rfl
    have habs : ∀ i j, i < n → ∑ t ∈ Finset.range n, |V' i t * (w t j).val| =
        absLU V w n i j + |(w i j).val| := fun i j hi => by
      have : ∀ t, |V' i t * (w t j).val| = |(V i t).val * (w t j).val| +
          if t = i then |(w i j).val| else 0 := fun t => by
        by_cases h : t = i
        · subst h; simp [V', hz t t le_rfl]
        · simp [V', h]
      simp only [this, Finset.sum_add_distrib]
      rw [Finset.sum_ite_eq', if_pos (Finset.mem_range.mpr hi)]
      rfl
    refine ⟨V', w, fun i j => w i (m + j), hg.b, hg.p, fun i => by simp [V', hz i i le_rfl],
      fun i t ht => by simp [V', hz i t ht.le, ht.ne], fun i hi => ⟨fun j hj hf => ?_, fun j hj hf => ?_⟩⟩
    · obtain ⟨h1, h2, h3⟩ := hw.err i j hi (by omega) hf
      rw [show w₀ i j = B i j from if_pos hj] at h1 h3
      refine ⟨h1, fun t ht => ?_, ?_⟩
      · by_cases hti : t = i
        · subst hti; exact .inl hf
        · rcases (h2 t ht).2 with h | h
          · exact .inl h
          · right; simp [V', hti, val_eq h]
      · rw [hsum i j hi, habs i j hi, ← sub_sub]
        exact h3
    · obtain ⟨h1, h2, h3⟩ := hw.err i (m + j) hi (by omega) hf
      rw [show w₀ i (m + j) = P i j by simp [w₀]] at h1 h3
      refine ⟨h1, fun t ht => ?_, ?_⟩
      · by_cases hti : t = i
        · subst hti; exact .inl hf
        · rcases (h2 t ht).2 with h | h
          · exact .inl h
          · right; simp [V', hti, val_eq h]
      · have := hsum i (m + j) hi
        have e2 := habs i (m + j) hi
        dsimp only at this e2 ⊢
        rw [this, e2, ← sub_sub]
        exact h3

/-- The matrix with the rows `(3.0, 1.0)` and `(misfit, 7.0)` again: everything is finite before and after
`to_rref`, and the computed transformation is not exact. -/
example : letI := field .debug (fun _ _ => nan)
    (matErr.rowEchelon >>= fun f => f.toRref >>= fun g =>
      .ok ((f.b.entries ++ f.p.entries ++ g.b.entries ++ g.p.entries).all fun x => x.value.isSome)) =
      .ok true ∧
    (matErr.rowEchelon >>= fun f => f.toRref >>= fun g => g.p.mul matErr >>= fun x =>
      .ok (decide (x = g.b))) = .ok false := by
  refine ⟨?_, ?_⟩ <;> fmt_decide

end Flt
end Verif
