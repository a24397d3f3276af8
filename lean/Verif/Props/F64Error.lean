import Verif.Proofs.F64Error
import Verif.Proofs.Shape
import Mathlib.Algebra.BigOperators.Intervals

/-!
# Rounding errors over `f32` and `f64` (C129, C130)
-/

namespace Verif
open Res LinAlg
namespace Flt
open Fmt
variable [Fmt]

/-! ### The operations -/

/-- C129. A finite sum is the exact sum up to a relative error of `2^-prec`. -/
theorem C129_add {x y : Flt} {a b c : ℚ} (hx : x.value = some a) (hy : y.value = some b)
    (hr : (add x y).value = some c) : |c - (a + b)| ≤ 1 / 2 ^ prec * |a + b| :=
  add_error hx hy hr

/-- C129. A finite difference is the exact difference up to a relative error of `2^-prec`. -/
theorem C129_sub {x y : Flt} {a b c : ℚ} (hx : x.value = some a) (hy : y.value = some b)
    (hr : (sub x y).value = some c) : |c - (a - b)| ≤ 1 / 2 ^ prec * |a - b| :=
  sub_error hx hy hr

/-- C129. A finite product is the exact product up to a relative error of `2^-prec` and an absolute error of
`2^-(unitExp + 1)`. -/
theorem C129_mul {x y : Flt} {a b c : ℚ} (hx : x.value = some a) (hy : y.value = some b)
    (hr : (mul x y).value = some c) : |c - a * b| ≤ 1 / 2 ^ prec * |a * b| + tiny :=
  mul_error hx hy hr

/-- C129. A finite quotient is the exact quotient up to a relative error of `2^-prec` and an absolute error
of `2^-(unitExp + 1)`; the divisor is not zero. -/
theorem C129_div {x y : Flt} {a b c : ℚ} (hx : x.value = some a) (hy : y.value = some b)
    (hr : (div x y).value = some c) : b ≠ 0 ∧ |c - a / b| ≤ 1 / 2 ^ prec * |a / b| + tiny :=
  div_error hx hy hr

/-- C129. Sums, products and quotients of finite numbers are finite if the exact result is below
`2^maxExp - 2^(maxExp - sig - 2)` in absolute value. -/
theorem C129_finite {x y : Flt} {a b : ℚ} (hx : x.value = some a) (hy : y.value = some b) :
    (|a + b| < 2 ^ maxExp - 2 ^ (maxExp - sig - 2) → ∃ c, (add x y).value = some c) ∧
    (|a - b| < 2 ^ maxExp - 2 ^ (maxExp - sig - 2) → ∃ c, (sub x y).value = some c) ∧
    (|a * b| < 2 ^ maxExp - 2 ^ (maxExp - sig - 2) → ∃ c, (mul x y).value = some c) ∧
    (b ≠ 0 → |a / b| < 2 ^ maxExp - 2 ^ (maxExp - sig - 2) → ∃ c, (div x y).value = some c) := by
  rw [← huge_eq]
  refine ⟨add_finite_of hx hy, fun h => ?_, mul_finite_of hx hy, div_finite_of hx hy⟩
  refine add_finite_of hx (b := -b) (by rw [value_neg, hy]; rfl) ?_
  rwa [← sub_eq_add_neg]

/-! ### Sums of products -/

/-- The exact sum of products. -/
def exactDot (l : List (Flt × Flt)) : ℚ := (l.map fun p => p.1.val * p.2.val).sum

/-- The sum of the absolute values of the products. -/
def absDot (l : List (Flt × Flt)) : ℚ := (l.map fun p => |p.1.val * p.2.val|).sum

/-- The sum of products as it is computed. -/
def computedDot (l : List (Flt × Flt)) : Flt := l.foldl (fun acc p => add acc (mul p.1 p.2)) zero

theorem exactDot_append (l : List (Flt × Flt)) (p : Flt × Flt) :
    exactDot (l ++ [p]) = exactDot l + p.1.val * p.2.val := by simp [exactDot]

theorem absDot_append (l : List (Flt × Flt)) (p : Flt × Flt) :
    absDot (l ++ [p]) = absDot l + |p.1.val * p.2.val| := by simp [absDot]

theorem absDot_nonneg (l : List (Flt × Flt)) : 0 ≤ absDot l := by
  refine List.sum_nonneg fun x hx => ?_
  obtain ⟨p, -, rfl⟩ := List.mem_map.mp hx
  exact abs_nonneg _

theorem abs_exactDot_le (l : List (Flt × Flt)) : |exactDot l| ≤ absDot l := by
  induction l with
  | nil => simp [exactDot, absDot]
  | cons p l ih =>
    simp only [exactDot, absDot, List.map_cons, List.sum_cons] at *
    exact (abs_add_le _ _).trans (by linarith)

theorem computedDot_append (l : List (Flt × Flt)) (p : Flt × Flt) :
    computedDot (l ++ [p]) = add (computedDot l) (mul p.1 p.2) := by simp [computedDot]

/-- `z` is the sum of `x` and `y` as it is computed, where adding a zero may also leave the other number as
it is. -/
def SumStep (x y z : Flt) : Prop :=
  z.value = (add x y).value ∨ (x.value = some 0 ∧ z.value = y.value) ∨
    (y.value = some 0 ∧ z.value = x.value)

theorem SumStep.finite {x y z : Flt} (h : SumStep x y z) {c : ℚ} (hz : z.value = some c) :
    (∃ a, x.value = some a) ∧ ∃ b, y.value = some b := by
  rcases h with h | ⟨h1, h2⟩ | ⟨h1, h2⟩
  · exact add_finite (h ▸ hz)
  · exact ⟨⟨0, h1⟩, c, h2 ▸ hz⟩
  · exact ⟨⟨c, h2 ▸ hz⟩, 0, h1⟩

theorem SumStep.error {x y z : Flt} (h : SumStep x y z) {a b c : ℚ} (hx : x.value = some a)
    (hy : y.value = some b) (hz : z.value = some c) : |c - (a + b)| ≤ roundoff * |a + b| := by
  have hu := roundoff_pos
  rcases h with h | ⟨h1, h2⟩ | ⟨h1, h2⟩
  · exact add_error hx hy (h ▸ hz)
  · have e1 : a = 0 := by simpa using hx.symm.trans h1
    have e2 : b = c := by simpa using hy.symm.trans (h2.symm.trans hz)
    subst e1 e2
    simp only [zero_add, sub_self, abs_zero]
    positivity
  · have e1 : b = 0 := by simpa using hy.symm.trans h1
    have e2 : a = c := by simpa using hx.symm.trans (h2.symm.trans hz)
    subst e1 e2
    simp only [add_zero, sub_self, abs_zero]
    positivity

theorem SumStep.zero_left {x y z : Flt} (h : SumStep x y z) (hv : y.Valid) {b c : ℚ}
    (hx : x.value = some 0) (hy : y.value = some b) (hz : z.value = some c) : c = b := by
  rcases h with h | ⟨h1, h2⟩ | ⟨h1, h2⟩
  · exact zero_add_value hx hy hv (h ▸ hz)
  · simpa using hz.symm.trans (h2.trans hy)
  · have e1 : b = 0 := by simpa using hy.symm.trans h1
    rw [e1]
    simpa using hz.symm.trans (h2.trans hx)

theorem SumStep.finite_of {x y z : Flt} (h : SumStep x y z) {a b : ℚ} (hx : x.value = some a)
    (hy : y.value = some b) (hab : |a + b| < huge) : ∃ c, z.value = some c := by
  rcases h with h | ⟨h1, h2⟩ | ⟨h1, h2⟩
  · rw [h]; exact add_finite_of hx hy hab
  · exact ⟨b, h2.trans hy⟩
  · exact ⟨a, h2.trans hx⟩

/-- `c` is a sum of the products of the pairs as it is computed. -/
inductive DotRun : List (Flt × Flt) → Flt → Prop
  | nil {c : Flt} : c.value = some 0 → DotRun [] c
  | snoc {l : List (Flt × Flt)} {p : Flt × Flt} {c d : Flt} : DotRun l c →
      SumStep c (mul p.1 p.2) d → DotRun (l ++ [p]) d

theorem computedDot_run (l : List (Flt × Flt)) : DotRun l (computedDot l) := by
  induction l using List.reverseRecOn with
  | nil => exact .nil value_zero
  | append_singleton l p ih => exact .snoc ih (.inl (by rw [computedDot_append]))

/-- The error of a sum of `n` products, and that a finite sum comes from finite numbers. -/
theorem DotRun.error {l : List (Flt × Flt)} {c : Flt} (hr : DotRun l c) {d : ℚ}
    (h : c.value = some d) :
    (∀ p ∈ l, p.1.value ≠ none ∧ p.2.value ≠ none) ∧
    |d - exactDot l| ≤ ((1 + roundoff) ^ l.length - 1) * absDot l +
      l.length * (1 + roundoff) ^ l.length * tiny := by
  induction hr generalizing d with
  | nil h0 =>
    have : d = 0 := by
      have := h.symm.trans h0
      simpa using this
    subst this
    simp [exactDot, absDot]
  | @snoc l p c e hrun hstep ih =>
    obtain ⟨⟨s, hs⟩, q, hq⟩ := hstep.finite h
    obtain ⟨⟨a, ha⟩, b, hb⟩ := mul_finite hq
    obtain ⟨hfin, herr⟩ := ih hs
    refine ⟨?_, ?_⟩
    · intro p' hp'
      rcases List.mem_append.mp hp' with hp' | hp'
      · exact hfin p' hp'
      · rw [List.mem_singleton.mp hp', ha, hb]; simp
    · have hm := mul_error ha hb hq
      have hu := roundoff_pos
      have ht := tiny_pos
      have hA := absDot_nonneg l
      have hE := abs_exactDot_le l
      rw [exactDot_append, absDot_append, val_eq ha, val_eq hb, List.length_append,
        List.length_singleton]
      have hab := abs_nonneg (a * b)
      by_cases hl : l = []
      · subst hl
        have hz : s = 0 := by
          generalize hl : ([] : List (Flt × Flt)) = l at hrun
          cases hrun with
          | nil h0 => simpa using hs.symm.trans h0
          | snoc _ _ => simp at hl
        rw [hz] at hs
        have hd := hstep.zero_left (valid_mul _ _) hs hq h
        subst hd
        simp only [exactDot, absDot, List.map_nil, List.sum_nil, List.length_nil, zero_add, pow_one,
          Nat.cast_one, one_mul]
        nlinarith
      · have hn : 1 ≤ l.length := List.length_pos_iff.mpr hl
        have hadd := hstep.error hs hq h
        generalize exactDot l = S at *
        generalize absDot l = A at *
        generalize hN : l.length = N at *
        have hG : 1 + roundoff ≤ (1 + roundoff) ^ N := by
          have := pow_le_pow_right₀ (by linarith : 1 ≤ 1 + roundoff) hn
          simpa using this
        have hN0 : (0 : ℚ) ≤ N := by positivity
        generalize roundoff = u at *
        generalize tiny = t at *
        rw [pow_succ]
        push_cast
        generalize (1 + u) ^ N = G at *
        have h1 : |s + q - (S + a * b)| ≤ (G - 1) * A + N * G * t + (u * |a * b| + t) := by
          have : s + q - (S + a * b) = (s - S) + (q - a * b) := by ring
          rw [this]
          exact (abs_add_le _ _).trans (by linarith)
        have h2 : |s + q| ≤ (A + |a * b|) + ((G - 1) * A + N * G * t + (u * |a * b| + t)) := by
          have : s + q = (S + a * b) + (s + q - (S + a * b)) := by ring
          rw [this]
          refine (abs_add_le _ _).trans (add_le_add ((abs_add_le _ _).trans (by linarith)) h1)
        have h3 : |d - (S + a * b)| ≤ |d - (s + q)| + |s + q - (S + a * b)| := by
          have : d - (S + a * b) = (d - (s + q)) + (s + q - (S + a * b)) := by ring
          rw [this]
          exact abs_add_le _ _
        have h4 : u * |s + q| ≤
            u * ((A + |a * b|) + ((G - 1) * A + N * G * t + (u * |a * b| + t))) :=
          mul_le_mul_of_nonneg_left h2 hu.le
        have h5 : |d - (S + a * b)| ≤ u * (A + |a * b|) +
            (1 + u) * ((G - 1) * A + N * G * t + (u * |a * b| + t)) := by linarith
        refine h5.trans ?_
        have k1 : (1 + u) * |a * b| * (1 + u) ≤ (1 + u) * |a * b| * G :=
          mul_le_mul_of_nonneg_left hG (by positivity)
        have k2 : (1 + u) * t * 1 ≤ (1 + u) * t * G :=
          mul_le_mul_of_nonneg_left (by linarith) (by positivity)
        nlinarith

/-- A sum of products of finite numbers is finite if the absolute values of the products are not too
large. -/
theorem DotRun.finite {l : List (Flt × Flt)} {c : Flt} (hr : DotRun l c)
    (hl : ∀ p ∈ l, p.1.value ≠ none ∧ p.2.value ≠ none)
    (h : (1 + roundoff) ^ l.length * (absDot l + l.length * tiny) < huge) :
    ∃ d, c.value = some d := by
  induction hr with
  | nil h0 => exact ⟨0, h0⟩
  | @snoc l p c e hrun hstep ih =>
    have hu := roundoff_pos
    have ht := tiny_pos
    have hA := absDot_nonneg l
    have hE := abs_exactDot_le l
    obtain ⟨h1, h2⟩ := hl p (by simp)
    obtain ⟨a, ha⟩ := Option.ne_none_iff_exists'.mp h1
    obtain ⟨b, hb⟩ := Option.ne_none_iff_exists'.mp h2
    rw [absDot_append, val_eq ha, val_eq hb, List.length_append, List.length_singleton] at h
    have hab := abs_nonneg (a * b)
    have hN0 : (0 : ℚ) ≤ l.length := by positivity
    have hG : 1 ≤ (1 + roundoff) ^ l.length := one_le_pow₀ (by linarith)
    have hG' : (1 + roundoff) ^ l.length ≤ (1 + roundoff) ^ (l.length + 1) :=
      pow_le_pow_right₀ (by linarith) (by omega)
    push_cast at h
    have hpos : 0 ≤ (l.length : ℚ) * tiny := by positivity
    obtain ⟨s, hs⟩ := ih (fun q hq => hl q (by simp [hq])) (by
      refine lt_of_le_of_lt ?_ h
      exact mul_le_mul hG' (by linarith) (by linarith) (by linarith))
    obtain ⟨-, herr⟩ := hrun.error hs
    obtain ⟨q, hq⟩ := mul_finite_of ha hb (by
      refine lt_of_le_of_lt ?_ h
      refine le_trans ?_ (mul_le_mul_of_nonneg_right (hG.trans hG')
        (by linarith : 0 ≤ absDot l + |a * b| + (l.length + 1) * tiny))
      linarith)
    have hm := mul_error ha hb hq
    refine hstep.finite_of hs hq (lt_of_le_of_lt ?_ h)
    have e : s + q = (s - exactDot l) + (q - a * b) + (exactDot l + a * b) := by ring
    rw [e]
    refine (abs_add_le _ _).trans ((add_le_add (abs_add_le _ _) (abs_add_le _ _)).trans ?_)
    rw [pow_succ] at hG' ⊢
    generalize exactDot l = S at *
    generalize absDot l = A at *
    generalize (l.length : ℚ) = N at *
    generalize (1 + roundoff) ^ l.length = G at *
    generalize roundoff = u at *
    generalize tiny = t at *
    have k1 : 0 ≤ (G - 1) * ((1 + u) * |a * b|) := mul_nonneg (by linarith) (by positivity)
    have k2 : 0 ≤ (G - 1) * ((1 + u) * t) := mul_nonneg (by linarith) (by positivity)
    have k3 : 0 ≤ u * (G * (A + N * t)) := mul_nonneg hu.le (mul_nonneg (by linarith) (by linarith))
    have k4 : 0 ≤ u * t := by positivity
    nlinarith

theorem computedDot_error (l : List (Flt × Flt)) {d : ℚ} (h : (computedDot l).value = some d) :
    (∀ p ∈ l, p.1.value ≠ none ∧ p.2.value ≠ none) ∧
    |d - exactDot l| ≤ ((1 + roundoff) ^ l.length - 1) * absDot l +
      l.length * (1 + roundoff) ^ l.length * tiny :=
  (computedDot_run l).error h

theorem computedDot_finite (l : List (Flt × Flt))
    (hl : ∀ p ∈ l, p.1.value ≠ none ∧ p.2.value ≠ none)
    (h : (1 + roundoff) ^ l.length * (absDot l + l.length * tiny) < huge) :
    ∃ d, (computedDot l).value = some d :=
  (computedDot_run l).finite hl h

omit [Fmt] in
theorem foldlM_pure {α β : Type} (f : β → α → β) (l : List α) (b : β) :
    l.foldlM (fun acc x => (Res.ok (f acc x) : Res β)) b = .ok (l.foldl f b) := by
  induction l generalizing b with
  | nil => rfl
  | cons x l ih => rw [List.foldlM_cons, bind_ok, ih]; rfl

/-- C130. `dot` over `f32` and `f64` returns; a finite result of `n` products differs from the exact sum of the
products by at most `((1 + 2^-prec)^n - 1) * Σ |x y| + n (1 + 2^-prec)^n 2^-(unitExp + 1)`. -/
theorem C130_dot (b : Build) (powi : Flt → Int → Flt) (M N : Mat Flt) :
    letI := field b powi
    ∃ s, M.dot N = .ok s ∧ ∀ d, s.value = some d →
      let l := M.entries.zip N.entries
      (∀ p ∈ l, p.1.value ≠ none ∧ p.2.value ≠ none) ∧
      |d - (l.map fun p => p.1.val * p.2.val).sum| ≤
        ((1 + 1 / 2 ^ prec) ^ l.length - 1) * (l.map fun p => |p.1.val * p.2.val|).sum +
          l.length * (1 + 1 / 2 ^ prec) ^ l.length * tiny := by
  let _ := field b powi
  exact ⟨_, foldlM_pure _ _ _, fun d hd => computedDot_error _ hd⟩

/-- C130. The result of `dot` is finite if the entries are and
`(1 + 2^-prec)^n (Σ |x y| + n 2^-(unitExp + 1)) < 2^maxExp - 2^(maxExp - sig - 2)`. -/
theorem C130_dot_finite (b : Build) (powi : Flt → Int → Flt) (M N : Mat Flt) :
    letI := field b powi
    let l := M.entries.zip N.entries
    (∀ p ∈ l, p.1.value ≠ none ∧ p.2.value ≠ none) →
    (1 + 1 / 2 ^ prec) ^ l.length * ((l.map fun p => |p.1.val * p.2.val|).sum + l.length * tiny) <
      2 ^ maxExp - 2 ^ (maxExp - sig - 2) →
    ∃ s d, M.dot N = .ok s ∧ s.value = some d := by
  let _ := field b powi
  intro l h1 h2
  rw [← huge_eq] at h2
  obtain ⟨d, hd⟩ := computedDot_finite l h1 h2
  exact ⟨_, d, foldlM_pure _ _ _, hd⟩

/-- C130. The same for `frobenius_norm`, the sum of the squares of the entries. -/
theorem C130_frobenius (b : Build) (powi : Flt → Int → Flt) (M : Mat Flt) :
    letI := field b powi
    ∃ s, M.frobeniusNorm = .ok s ∧ ∀ d, s.value = some d →
      (∀ x ∈ M.entries, x.value ≠ none) ∧
      |d - (M.entries.map fun x => x.val ^ 2).sum| ≤
        ((1 + 1 / 2 ^ prec) ^ M.entries.length - 1) * (M.entries.map fun x => x.val ^ 2).sum +
          M.entries.length * (1 + 1 / 2 ^ prec) ^ M.entries.length * tiny := by
  let _ := field b powi
  refine ⟨_, foldlM_pure _ _ _, fun d hd => ?_⟩
  have := computedDot_error (M.entries.map fun x => (x, x)) (d := d) (by
    rw [computedDot, List.foldl_map]; exact hd)
  simp only [exactDot, absDot, List.map_map, Function.comp_def, List.length_map, List.mem_map,
    forall_exists_index, and_imp, forall_apply_eq_imp_iff₂, abs_mul, ← pow_two,
    sq_abs] at this
  exact ⟨fun x hx => (this.1 x hx).1, this.2⟩

/-- C130. The entries of a matrix product over `f32` and `f64` are sums of products with the same error bound. -/
theorem C130_mul (b : Build) (powi : Flt → Int → Flt) {A B : Mat Flt} {n m k : ℕ}
    {x y : ℕ → ℕ → Flt} (hnk : n * k < 18446744073709551616) :
    letI := field b powi
    A.Has n m x → B.Has m k y →
    ∃ C z, A.mul B = .ok C ∧ C.Has n k z ∧ ∀ i j, i < n → j < k → ∀ d, (z i j).value = some d →
      (∀ t, t < m → (x i t).value ≠ none ∧ (y t j).value ≠ none) ∧
      |d - ∑ t ∈ Finset.range m, (x i t).val * (y t j).val| ≤
        ((1 + 1 / 2 ^ prec) ^ m - 1) * ∑ t ∈ Finset.range m, |(x i t).val * (y t j).val| +
          m * (1 + 1 / 2 ^ prec) ^ m * tiny := by
  let _ := field b powi
  intro hA hB
  let z := fun i j => computedDot ((List.range m).map fun t => (x i t, y t j))
  have hfold : ∀ i j, j < k → ∀ l : List ℕ, (∀ t ∈ l, t < m) → ∀ acc : Flt,
      ((l.map fun t => x i t).zip l).foldlM (fun accum (p : Flt × ℕ) => do
        let y ← B.get p.2 j
        let z ← RField.mul p.1 y
        RField.add accum z) acc =
      .ok ((l.map fun t => (x i t, y t j)).foldl (fun acc p => add acc (mul p.1 p.2)) acc) := by
    intro i j hj l
    induction l with
    | nil => intro _ acc; rfl
    | cons t l ih =>
      intro hl acc
      rw [List.map_cons, List.zip_cons_cons, List.foldlM_cons, hB.get (hl t (by simp)) hj, bind_ok]
      exact ih (fun t ht => hl t (by simp [ht])) _
  have hmap : ∀ l : List (ℕ × ℕ), (∀ p ∈ l, p.1 < n ∧ p.2 < k) →
      l.mapM (fun (r, c) => do
        let row ← A.getRowIter r
        (row.zip (List.range B.rows)).foldlM (fun accum (x, k) => do
          let y ← B.get k c
          let z ← RField.mul x y
          RField.add accum z) RField.zero) = .ok (l.map fun p => z p.1 p.2) := by
    intro l
    induction l with
    | nil => intro _; rfl
    | cons p l ih =>
      intro hl
      have hp := hl p (by simp)
      rw [List.mapM_cons]
      simp only
      rw [hA.getRowIter hp.1, bind_ok, hB.rows]
      have := hfold p.1 p.2 hp.2 (List.range m) (fun t ht => List.mem_range.mp ht) zero
      refine bind_eq_ok.mpr ⟨z p.1 p.2, this, ?_⟩
      rw [← hB.rows]
      rw [ih fun q hq => hl q (by simp [hq])]
      rfl
  refine ⟨Mat.new n k ((boxIter n k).map fun p => z p.1 p.2), z, ?_,
    Mat.has_of_box hA.rows_lt hB.cols_lt hnk, ?_⟩
  · unfold Mat.mul
    rw [if_neg (by rw [hA.cols, hB.rows]; simp), hA.rows, hB.cols]
    refine bind_eq_ok.mpr ⟨_, hmap (boxIter n k) ?_, rfl⟩
    intro p hp
    exact mem_boxIter.mp hp
  · intro i j hi hj d hd
    obtain ⟨h1, h2⟩ := computedDot_error _ hd
    refine ⟨fun t ht => h1 (x i t, y t j) (List.mem_map.mpr ⟨t, List.mem_range.mpr ht, rfl⟩), ?_⟩
    simp only [exactDot, absDot, List.map_map, Function.comp_def, List.length_map, List.length_range]
      at h2
    exact h2

/-! ### Example: `0.1 + 0.1 + 0.1` is finite and not exact -/

/-- The number of units of `0.1`. -/
def tenthUnits : ℕ := roundNat unit 10

/-- The row `(0.1, 0.1, 0.1)`. -/
def tenths : Mat Flt := ⟨[fin false tenthUnits, fin false tenthUnits, fin false tenthUnits], 1, 3⟩

/-- The column of three `1.0`. -/
def ones : Mat Flt := ⟨[one, one, one], 3, 1⟩

example : ∃ n, add (fin false tenthUnits) (add (fin false tenthUnits) (fin false tenthUnits)) =
    fin false n ∧ n ≠ 3 * tenthUnits := by
  refine ⟨roundNat (3 * tenthUnits) 1, ?_, ?_⟩ <;> fmt_decide

example : letI := field .debug fun _ _ => nan
    ∃ s d, tenths.dot ones = .ok s ∧ s.value = some d ∧
      d ≠ ((tenths.entries.zip ones.entries).map fun p => p.1.val * p.2.val).sum := by
  let _ := field .debug fun _ _ => nan
  have h : tenths.dot ones = .ok (fin false (roundNat (3 * tenthUnits) 1)) := by fmt_decide
  refine ⟨_, _, h, rfl, ?_⟩
  have hne : roundNat (3 * tenthUnits) 1 ≠ 3 * tenthUnits := by fmt_decide
  have h2 := unit_posQ
  simp only [tenths, ones, List.zip_cons_cons, List.zip_nil_right, List.map_cons, List.map_nil,
    List.sum_cons, List.sum_nil, val, value, Option.getD_some, units, one, Bool.false_eq_true,
    if_false, Int.cast_natCast]
  rw [div_self h2.ne']
  intro he
  apply hne
  field_simp at he
  generalize roundNat (3 * tenthUnits) 1 = r at *
  have : (r : ℚ) = ((3 * tenthUnits : ℕ) : ℚ) := by push_cast; linarith
  exact_mod_cast this

end Flt
end Verif
