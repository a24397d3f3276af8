import Verif.Props.DivideError

/-!
# Rounding errors of `eval` over `f32` and `f64` (C228)
-/

namespace Verif
open Res
namespace Flt
open Fmt
variable [Fmt]

/-- The values of the powers in a term, as computed. -/
def factors (powi : Flt → Int → Flt) (t : Term Flt) (x : List Flt) : List Flt :=
  (t.mdeg.zip x).map fun y => powi y.2 (y.1 : Int)

/-- The exact product of the absolute values, each replaced by one if it is smaller. -/
def bigProd (l : List Flt) : ℚ := (l.map fun y => max 1 |y.val|).prod

theorem bigProd_ge (l : List Flt) : 1 ≤ bigProd l := by
  unfold bigProd
  induction l with
  | nil => simp
  | cons y l ih =>
    rw [List.map_cons, List.prod_cons]
    exact one_le_mul_of_one_le_of_one_le (le_max_left _ _) ih

/-- The error of a product, multiplied from the left. -/
theorem prod_error (l : List Flt) (c : Flt) {d : ℚ} (h : (l.foldl mul c).value = some d) :
    c.value ≠ none ∧ (∀ y ∈ l, y.value ≠ none) ∧
    |d - c.val * (l.map val).prod| ≤ ((1 + roundoff) ^ l.length - 1) * |c.val * (l.map val).prod| +
      l.length * (1 + roundoff) ^ l.length * tiny * bigProd l := by
  induction l using List.reverseRecOn generalizing d with
  | nil =>
    have h : c.value = some d := h
    refine ⟨by rw [h]; simp, by simp, ?_⟩
    rw [val_eq h]; simp
  | append_singleton l y ih =>
    rw [List.foldl_append, List.foldl_cons, List.foldl_nil] at h
    obtain ⟨⟨a, ha⟩, b, hb⟩ := mul_finite h
    obtain ⟨i1, i2, i3⟩ := ih ha
    have herr := mul_error ha hb h
    refine ⟨i1, ?_, ?_⟩
    · intro z hz
      rcases List.mem_append.mp hz with hz | hz
      · exact i2 z hz
      · rw [List.mem_singleton.mp hz, hb]; simp
    · have hu := roundoff_pos
      have ht := tiny_pos
      have hQ := bigProd_ge l
      have eQ : bigProd (l ++ [y]) = bigProd l * max 1 |b| := by simp [bigProd, val_eq hb]
      have eP : ((l ++ [y]).map val).prod = (l.map val).prod * b := by simp [val_eq hb]
      have hG : 1 ≤ (1 + roundoff) ^ l.length := one_le_pow₀ (by linarith)
      rw [eQ, eP, List.length_append, List.length_singleton, pow_succ, ← mul_assoc]
      push_cast
      have hN : (0 : ℚ) ≤ l.length := by positivity
      generalize (l.length : ℚ) = N at *
      generalize (1 + roundoff) ^ l.length = G at *
      generalize c.val * (l.map val).prod = C at *
      generalize bigProd l = Q at *
      generalize roundoff = u at *
      generalize tiny = t at *
      have hm1 : 1 ≤ max 1 |b| := le_max_left _ _
      have hm2 : |b| ≤ max 1 |b| := le_max_right _ _
      generalize max 1 |b| = m at *
      have hy := abs_nonneg b
      have hC := abs_nonneg C
      have h1 : |d - C * b| ≤ |d - a * b| + |a - C| * |b| := by
        have : d - C * b = (d - a * b) + (a - C) * b := by ring
        rw [this, ← abs_mul]
        exact abs_add_le _ _
      have h2 : |a| ≤ |C| + |a - C| := by
        have := abs_sub_abs_le_abs_sub a C
        linarith
      rw [abs_mul] at herr ⊢
      have h3 : u * (|a| * |b|) ≤ u * ((|C| + |a - C|) * |b|) := by gcongr
      have h4 : (1 + u) * |a - C| * |b| ≤ (1 + u) * ((G - 1) * |C| + N * G * t * Q) * |b| := by gcongr
      have h5 : (1 + u) * (N * G * t * Q) * |b| ≤ (1 + u) * (N * G * t * Q) * m := by
        apply mul_le_mul_of_nonneg_left hm2
        have : 0 ≤ G := by linarith
        have : 0 ≤ Q := by linarith
        positivity
      have h6 : t ≤ (1 + u) * (G * t * Q) * m := by
        have k1 : 1 ≤ (1 + u) * G := one_le_mul_of_one_le_of_one_le (by linarith) hG
        have k2 : 1 ≤ (1 + u) * G * Q := one_le_mul_of_one_le_of_one_le k1 hQ
        have k3 : 1 ≤ (1 + u) * G * Q * m := one_le_mul_of_one_le_of_one_le k2 hm1
        calc t = 1 * t := (one_mul t).symm
          _ ≤ ((1 + u) * G * Q * m) * t := by gcongr
          _ = _ := by ring
      linarith

/-- The error of a sum, added up from `0.0`. -/
theorem sum_error (l : List Flt) {d : ℚ} (h : (l.foldl add zero).value = some d) :
    (∀ y ∈ l, y.value ≠ none) ∧
    |d - (l.map val).sum| ≤ ((1 + roundoff) ^ l.length - 1) * (l.map fun y => |y.val|).sum := by
  induction l using List.reverseRecOn generalizing d with
  | nil =>
    have h : zero.value = some d := h
    rw [value_zero] at h
    have : d = 0 := by simpa using h.symm
    subst this
    simp
  | append_singleton l y ih =>
    rw [List.foldl_append, List.foldl_cons, List.foldl_nil] at h
    obtain ⟨⟨a, ha⟩, b, hb⟩ := add_finite h
    obtain ⟨i2, i3⟩ := ih ha
    have herr := add_error ha hb h
    refine ⟨?_, ?_⟩
    · intro z hz
      rcases List.mem_append.mp hz with hz | hz
      · exact i2 z hz
      · rw [List.mem_singleton.mp hz, hb]; simp
    · have hu := roundoff_pos
      have hG : 1 ≤ (1 + roundoff) ^ l.length := one_le_pow₀ (by linarith)
      have hS : |(l.map val).sum| ≤ (l.map fun y => |y.val|).sum := by
        clear * -
        induction l with
        | nil => simp
        | cons y l ih =>
          rw [List.map_cons, List.map_cons, List.sum_cons, List.sum_cons]
          exact (abs_add_le _ _).trans (by linarith)
      simp only [List.map_append, List.map_cons, List.map_nil, List.sum_append, List.sum_cons, List.sum_nil, add_zero,
        List.length_append, List.length_singleton, pow_succ, val_eq hb]
      generalize (1 + roundoff) ^ l.length = G at *
      generalize (l.map val).sum = S at *
      generalize (l.map fun y => |y.val|).sum = A at *
      generalize roundoff = u at *
      have h1 : |d - (S + b)| ≤ |d - (a + b)| + |a - S| := by
        have : d - (S + b) = (d - (a + b)) + (a - S) := by ring
        rw [this]
        exact abs_add_le _ _
      have h2 : |a + b| ≤ A + |b| + |a - S| := by
        have e : a + b = S + b + (a - S) := by ring
        rw [e]
        have := abs_add_le (S + b) (a - S)
        have := abs_add_le S b
        linarith
      have hb' := abs_nonneg b
      have h3 : u * |a + b| ≤ u * (A + |b| + |a - S|) := by gcongr
      have h4 : (1 + u) * |a - S| ≤ (1 + u) * ((G - 1) * A) := by gcongr
      have h5 : 0 ≤ (G - 1) * (1 + u) * |b| := by
        have : 0 ≤ G - 1 := by linarith
        positivity
      nlinarith

omit [Fmt] in
/-- Sums of lists, termwise. -/
theorem sum_le_sum' {α : Type} (l : List α) {f g : α → ℚ} (h : ∀ a ∈ l, f a ≤ g a) :
    (l.map f).sum ≤ (l.map g).sum := by
  induction l with
  | nil => simp
  | cons a l ih =>
    rw [List.map_cons, List.map_cons, List.sum_cons, List.sum_cons]
    exact add_le_add (h a (by simp)) (ih fun b hb => h b (by simp [hb]))

omit [Fmt] in
theorem abs_sum_sub_le {α : Type} (l : List α) (f g : α → ℚ) :
    |(l.map f).sum - (l.map g).sum| ≤ (l.map fun a => |f a - g a|).sum := by
  induction l with
  | nil => simp
  | cons a l ih =>
    simp only [List.map_cons, List.sum_cons]
    have : f a + (l.map f).sum - (g a + (l.map g).sum) = (f a - g a) + ((l.map f).sum - (l.map g).sum) := by ring
    rw [this]
    exact (abs_add_le _ _).trans (by linarith)

variable (b : Build) (powi : Flt → Int → Flt)

/-- The value of a term as computed. -/
theorem term_eval_eq (t : Term Flt) (x : List Flt) (h : t.mdeg.length ≤ x.length) :
    letI := field b powi
    t.eval x = .ok ((factors powi t x).foldl mul t.coef) := by
  let _ := field b powi
  unfold Term.eval
  rw [if_neg (by change ¬ x.length < t.mdeg.length; omega)]
  have : ∀ (z : List (ℕ × Flt)) (c : Flt), z.foldlM (fun acc (y : ℕ × Flt) => (do
      let v ← RField.powi32 y.2 (y.1 : Int); RField.mul acc v : Res Flt)) c =
      .ok ((z.map fun y => powi y.2 (y.1 : Int)).foldl mul c) := by
    intro z
    induction z with
    | nil => intro c; rfl
    | cons y z ih =>
      intro c
      rw [List.foldlM_cons]
      exact ih _
  exact this _ _

theorem eval_eq (p : Poly Flt) (x : List Flt) (h : ∀ t ∈ p, t.mdeg.length ≤ x.length) :
    letI := field b powi
    p.eval x = .ok ((p.map fun t => (factors powi t x).foldl mul t.coef).foldl add zero) := by
  let _ := field b powi
  change List.foldlM (fun acc y => do let y ← y; Res.ok (add acc y)) zero (p.map fun t => t.eval x) = _
  generalize zero = z
  induction p generalizing z with
  | nil => rfl
  | cons t p ih =>
    rw [List.map_cons, List.foldlM_cons, term_eval_eq b powi t x (h t (by simp))]
    exact ih (fun u hu => h u (by simp [hu])) _

/-- C228. The value of a polynomial over `f32` or `f64` at a point with enough coordinates is returned.  If it is finite,
so are all coefficients and powers, and it differs from the sum of the exact products of the coefficients with the
computed powers by at most `((1 + 2^-prec)^(k + L) - 1) Σ |products| + L (1 + 2^-prec)^(k + L) 2^-(unitExp + 1) Σ Q`, where
`k` is the number of terms, `L` the largest number of variables in a term, and `Q` the product of those powers of the term
that are greater than one in absolute value. -/
theorem C228_eval (p : Poly Flt) (x : List Flt) (L : ℕ) (hL : ∀ t ∈ p, t.mdeg.length ≤ L)
    (hx : ∀ t ∈ p, t.mdeg.length ≤ x.length) :
    letI := field b powi
    ∃ v, p.eval x = .ok v ∧ ∀ d, v.value = some d →
      (∀ t ∈ p, t.coef.value ≠ none ∧ ∀ y ∈ t.mdeg.zip x, (powi y.2 y.1).value ≠ none) ∧
      |d - (p.map fun t => t.coef.val * ((t.mdeg.zip x).map fun y => (powi y.2 y.1).val).prod).sum| ≤
        ((1 + 1 / 2 ^ prec) ^ (p.length + L) - 1) *
          (p.map fun t => |t.coef.val * ((t.mdeg.zip x).map fun y => (powi y.2 y.1).val).prod|).sum +
        L * (1 + 1 / 2 ^ prec) ^ (p.length + L) * tiny *
          (p.map fun t => ((t.mdeg.zip x).map fun y => max 1 |(powi y.2 y.1).val|).prod).sum := by
  let _ := field b powi
  refine ⟨_, eval_eq b powi p x hx, fun d hd => ?_⟩
  obtain ⟨h1, h2⟩ := sum_error _ hd
  have hu := roundoff_pos
  have ht := tiny_pos
  have key : ∀ t ∈ p, t.coef.value ≠ none ∧ (∀ y ∈ factors powi t x, y.value ≠ none) ∧
      |((factors powi t x).foldl mul t.coef).val - t.coef.val * ((factors powi t x).map val).prod| ≤
        ((1 + roundoff) ^ L - 1) * |t.coef.val * ((factors powi t x).map val).prod| +
          L * (1 + roundoff) ^ L * tiny * bigProd (factors powi t x) := by
    intro t htp
    obtain ⟨i1, i2, i3⟩ := prod_error (factors powi t x) t.coef
      (value_val (h1 _ (List.mem_map_of_mem (f := fun t => (factors powi t x).foldl mul t.coef) htp)))
    refine ⟨i1, i2, i3.trans ?_⟩
    have hl : (factors powi t x).length ≤ L := by
      unfold factors
      rw [List.length_map, List.length_zip]
      exact (min_le_left _ _).trans (hL t htp)
    have hp : (1 + roundoff) ^ (factors powi t x).length ≤ (1 + roundoff) ^ L := pow_le_pow_right₀ (by linarith) hl
    have hl' : ((factors powi t x).length : ℚ) ≤ L := by exact_mod_cast hl
    have hQ := bigProd_ge (factors powi t x)
    gcongr
  refine ⟨fun t htp => ⟨(key t htp).1, fun y hy => (key t htp).2.1 _ (List.mem_map_of_mem (f := fun y => powi y.2 (y.1 : Int)) hy)⟩, ?_⟩
  have e1 : ∀ t : Term Flt, ((t.mdeg.zip x).map fun y => (powi y.2 y.1).val) = (factors powi t x).map val := fun t => by
    simp [factors]
  have e2 : ∀ t : Term Flt, ((t.mdeg.zip x).map fun y => max 1 |(powi y.2 y.1).val|).prod = bigProd (factors powi t x) :=
    fun t => by simp [factors, bigProd, Function.comp_def]
  simp only [e1, e2]
  change _ ≤ ((1 + roundoff) ^ (p.length + L) - 1) * _ + L * (1 + roundoff) ^ (p.length + L) * tiny * _
  simp only [List.map_map, Function.comp_def, List.length_map] at h2
  rw [pow_add]
  have hGk : 1 ≤ (1 + roundoff) ^ p.length := one_le_pow₀ (by linarith)
  set T : Term Flt → ℚ := fun t => t.coef.val * ((factors powi t x).map val).prod with hT
  set V : Term Flt → ℚ := fun t => ((factors powi t x).foldl mul t.coef).val with hV
  have s1 := abs_sum_sub_le p V T
  have s2 : (p.map fun t => |V t - T t|).sum ≤ ((1 + roundoff) ^ L - 1) * (p.map fun t => |T t|).sum +
      L * (1 + roundoff) ^ L * tiny * (p.map fun t => bigProd (factors powi t x)).sum := by
    rw [← List.sum_map_mul_left, ← List.sum_map_mul_left, ← List.sum_map_add]
    exact sum_le_sum' p fun t htp => (key t htp).2.2
  have s3 : (p.map fun t => |V t|).sum ≤ (p.map fun t => |T t|).sum + (p.map fun t => |V t - T t|).sum := by
    rw [← List.sum_map_add]
    exact sum_le_sum' p fun t _ => by
      have := abs_sub_abs_le_abs_sub (V t) (T t)
      linarith
  have s4 : |d - (p.map T).sum| ≤ |d - (p.map V).sum| + |(p.map V).sum - (p.map T).sum| := abs_sub_le _ _ _
  generalize (1 + roundoff) ^ p.length = G at *
  generalize (1 + roundoff) ^ L = H at *
  generalize (p.map fun t => |T t|).sum = A at *
  generalize (p.map fun t => |V t - T t|).sum = E at *
  generalize (p.map fun t => bigProd (factors powi t x)).sum = Q at *
  have s5 : (G - 1) * (p.map fun t => |V t|).sum ≤ (G - 1) * (A + E) :=
    mul_le_mul_of_nonneg_left s3 (by linarith)
  have s6 : G * E ≤ G * ((H - 1) * A + L * H * tiny * Q) := mul_le_mul_of_nonneg_left s2 (by linarith)
  have : |d - (p.map T).sum| ≤ (G - 1) * (A + E) + E := by linarith
  refine this.trans ?_
  linarith

omit [Fmt] in
/-- The relative error of a product of powers. -/
theorem powers_error {α : Type} (l : List α) (f g : α → ℚ) (η : ℚ) (h0 : 0 ≤ η)
    (h : ∀ a ∈ l, |f a - g a| ≤ η * |g a|) :
    |(l.map f).prod - (l.map g).prod| ≤ ((1 + η) ^ l.length - 1) * |(l.map g).prod| ∧
    (l.map fun a => max 1 |f a|).prod ≤ (1 + η) ^ l.length * (l.map fun a => max 1 |g a|).prod := by
  induction l with
  | nil => simp
  | cons a l ih =>
    obtain ⟨i1, i2⟩ := ih fun b hb => h b (by simp [hb])
    have ha := h a (by simp)
    simp only [List.map_cons, List.prod_cons, List.length_cons, pow_succ]
    have hH : 1 ≤ (1 + η) ^ l.length := one_le_pow₀ (by linarith)
    have hfa : |f a| ≤ (1 + η) * |g a| := by
      have := abs_sub_abs_le_abs_sub (f a) (g a)
      linarith
    constructor
    · generalize (1 + η) ^ l.length = H at *
      generalize (l.map f).prod = P at *
      generalize (l.map g).prod = R at *
      have : f a * P - g a * R = f a * (P - R) + (f a - g a) * R := by ring
      rw [this, abs_mul (g a)]
      refine (abs_add_le _ _).trans ?_
      rw [abs_mul, abs_mul]
      have k1 : |f a| * |P - R| ≤ ((1 + η) * |g a|) * ((H - 1) * |R|) :=
        mul_le_mul hfa i1 (abs_nonneg _) (by positivity)
      have k2 : |f a - g a| * |R| ≤ η * |g a| * |R| := by gcongr
      linarith
    · have k : max 1 |f a| ≤ (1 + η) * max 1 |g a| := by
        have h1 : 1 ≤ max 1 |g a| := le_max_left _ _
        have h2 : |g a| ≤ max 1 |g a| := le_max_right _ _
        refine max_le (one_le_mul_of_one_le_of_one_le (by linarith) h1) (hfa.trans ?_)
        gcongr
      have hp : 0 ≤ (l.map fun a => max 1 |f a|).prod :=
        List.prod_nonneg fun y hy => by
          obtain ⟨a, -, rfl⟩ := List.mem_map.mp hy
          exact zero_le_one.trans (le_max_left _ _)
      calc max 1 |f a| * (l.map fun a => max 1 |f a|).prod
          ≤ ((1 + η) * max 1 |g a|) * ((1 + η) ^ l.length * (l.map fun a => max 1 |g a|).prod) :=
            mul_le_mul k i2 hp (by positivity)
        _ = _ := by ring

/-- C228, relative to the accuracy of `powi`: if the powers met are within the relative error `η` of the exact ones, a
finite value of a polynomial differs from the exact value by at most
`((1 + 2^-prec)^(k + L) (1 + η)^L - 1) Σ |terms| + L (1 + 2^-prec)^(k + L) (1 + η)^L 2^-(unitExp + 1) Σ Π max(1, |x_i^d_i|)`. -/
theorem C228_accuracy (p : Poly Flt) (x : List Flt) (L : ℕ) (hL : ∀ t ∈ p, t.mdeg.length ≤ L)
    (hx : ∀ t ∈ p, t.mdeg.length ≤ x.length) (η : ℚ) (h0 : 0 ≤ η)
    (hη : ∀ t ∈ p, ∀ y ∈ t.mdeg.zip x, (powi y.2 y.1).value ≠ none →
      |(powi y.2 y.1).val - y.2.val ^ y.1| ≤ η * |y.2.val ^ y.1|) :
    letI := field b powi
    ∃ v, p.eval x = .ok v ∧ ∀ d, v.value = some d →
      |d - (p.map fun t => t.coef.val * ((t.mdeg.zip x).map fun y => y.2.val ^ y.1).prod).sum| ≤
        ((1 + 1 / 2 ^ prec) ^ (p.length + L) * (1 + η) ^ L - 1) *
          (p.map fun t => |t.coef.val * ((t.mdeg.zip x).map fun y => y.2.val ^ y.1).prod|).sum +
        L * ((1 + 1 / 2 ^ prec) ^ (p.length + L) * (1 + η) ^ L) * tiny *
          (p.map fun t => ((t.mdeg.zip x).map fun y => max 1 |y.2.val ^ y.1|).prod).sum := by
  let _ := field b powi
  obtain ⟨v, hv, h⟩ := C228_eval b powi p x L hL hx
  refine ⟨v, hv, fun d hd => ?_⟩
  obtain ⟨hf, h⟩ := h d hd
  have hu := roundoff_pos
  have ht := tiny_pos
  have hG : 1 ≤ (1 + 1 / 2 ^ prec : ℚ) ^ (p.length + L) := one_le_pow₀ (by change 1 ≤ 1 + roundoff; linarith)
  have hH : 1 ≤ (1 + η) ^ L := one_le_pow₀ (by linarith)
  have key : ∀ t ∈ p, |t.coef.val * ((t.mdeg.zip x).map fun y => (powi y.2 y.1).val).prod -
        t.coef.val * ((t.mdeg.zip x).map fun y => y.2.val ^ y.1).prod| ≤
      ((1 + η) ^ L - 1) * |t.coef.val * ((t.mdeg.zip x).map fun y => y.2.val ^ y.1).prod| ∧
      ((t.mdeg.zip x).map fun y => max 1 |(powi y.2 y.1).val|).prod ≤
        (1 + η) ^ L * ((t.mdeg.zip x).map fun y => max 1 |y.2.val ^ y.1|).prod := by
    intro t htp
    obtain ⟨k1, k2⟩ := powers_error (t.mdeg.zip x) (fun y => (powi y.2 y.1).val) (fun y => y.2.val ^ y.1) η h0
      fun y hy => hη t htp y hy ((hf t htp).2 y hy)
    have hl : (t.mdeg.zip x).length ≤ L := by
      rw [List.length_zip]
      exact (min_le_left _ _).trans (hL t htp)
    have hp : (1 + η) ^ (t.mdeg.zip x).length ≤ (1 + η) ^ L := pow_le_pow_right₀ (by linarith) hl
    constructor
    · rw [← mul_sub, abs_mul, abs_mul]
      have k3 : ((1 + η) ^ (t.mdeg.zip x).length - 1) * |((t.mdeg.zip x).map fun y => y.2.val ^ y.1).prod| ≤
          ((1 + η) ^ L - 1) * |((t.mdeg.zip x).map fun y => y.2.val ^ y.1).prod| := by gcongr
      have := mul_le_mul_of_nonneg_left (k1.trans k3) (abs_nonneg t.coef.val)
      linarith
    · refine k2.trans (mul_le_mul_of_nonneg_right hp (List.prod_nonneg fun y hy => ?_))
      obtain ⟨a, -, rfl⟩ := List.mem_map.mp hy
      exact zero_le_one.trans (le_max_left _ _)
  set T : Term Flt → ℚ := fun t => t.coef.val * ((t.mdeg.zip x).map fun y => (powi y.2 y.1).val).prod with hT
  set E : Term Flt → ℚ := fun t => t.coef.val * ((t.mdeg.zip x).map fun y => y.2.val ^ y.1).prod with hE
  set Q : Term Flt → ℚ := fun t => ((t.mdeg.zip x).map fun y => max 1 |(powi y.2 y.1).val|).prod with hQ
  set R : Term Flt → ℚ := fun t => ((t.mdeg.zip x).map fun y => max 1 |y.2.val ^ y.1|).prod with hR
  have s1 := abs_sum_sub_le p T E
  have s2 : (p.map fun t => |T t - E t|).sum ≤ ((1 + η) ^ L - 1) * (p.map fun t => |E t|).sum := by
    rw [← List.sum_map_mul_left]
    exact sum_le_sum' p fun t htp => (key t htp).1
  have s3 : (p.map fun t => |T t|).sum ≤ (1 + η) ^ L * (p.map fun t => |E t|).sum := by
    rw [← List.sum_map_mul_left]
    refine sum_le_sum' p fun t htp => ?_
    have := abs_sub_abs_le_abs_sub (T t) (E t)
    have := (key t htp).1
    linarith
  have s4 : (p.map Q).sum ≤ (1 + η) ^ L * (p.map R).sum := by
    rw [← List.sum_map_mul_left]
    exact sum_le_sum' p fun t htp => (key t htp).2
  have s5 : |d - (p.map E).sum| ≤ |d - (p.map T).sum| + |(p.map T).sum - (p.map E).sum| := abs_sub_le _ _ _
  have hLn : (0 : ℚ) ≤ L := by positivity
  generalize (1 + 1 / 2 ^ prec : ℚ) ^ (p.length + L) = G at *
  generalize (1 + η) ^ L = H at *
  have s6 : (G - 1) * (p.map fun t => |T t|).sum ≤ (G - 1) * (H * (p.map fun t => |E t|).sum) :=
    mul_le_mul_of_nonneg_left s3 (by linarith)
  have s7 : L * G * tiny * (p.map Q).sum ≤ L * G * tiny * (H * (p.map R).sum) :=
    mul_le_mul_of_nonneg_left s4 (by have : 0 ≤ G := by linarith
                                     positivity)
  linarith

/-- Powers by repeated multiplication, a sample implementation of `powi`. -/
def powiBy (a : Flt) (d : Int) : Flt := (List.replicate d.toNat a).foldl mul one

/-- C228, a case: a third times `x` at `3` is `1`, though a third of `1` is not a float; the power met is exact. -/
theorem C228_run : letI := field .debug powiBy
    Poly.eval [⟨div one three, [1]⟩] [three] = .ok one ∧ one.value = some 1 ∧
    |(powiBy three (1 : ℕ)).val - three.val ^ 1| ≤ 0 * |three.val ^ 1| ∧
    (div one three).val * three.val ^ 1 ≠ 1 := by
  let _ := field .debug powiBy
  have hu := unit_posQ
  have hthird : ∃ m, div one three = fin false m ∧ 3 * m ≠ unit := by
    have key : (match div one three with | fin false m => decide (3 * m ≠ unit) | _ => false) = true := by fmt_decide
    split at key
    · next m hm => exact ⟨m, hm, of_decide_eq_true key⟩
    · cases key
  obtain ⟨m, hm, hne⟩ := hthird
  have v3 : three.val = 3 := val_eq (by simp [value, three, units, hu.ne'])
  have vm : (fin false m).val = m / unit := val_eq (by simp [value, units])
  refine ⟨by fmt_decide, value_one, ?_, ?_⟩
  · have : powiBy three (1 : ℕ) = three := by fmt_decide
    rw [this]; simp
  · rw [hm, v3, vm]
    intro h
    apply hne
    field_simp at h
    have : ((3 * m : ℕ) : ℚ) = unit := by push_cast; linarith
    exact_mod_cast this

end Flt
end Verif
