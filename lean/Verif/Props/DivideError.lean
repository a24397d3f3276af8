import Verif.Props.PolyError
import Verif.Props.DivideSorted
import Verif.Proofs.Run

/-!
# The residual of `divide` over `f32` and `f64` (C227)
-/

namespace Verif
open Res Computer MvPolynomial
namespace Flt
open Fmt
variable [Fmt]

/-- `2^-prec / (1 - 2^-prec)`: the bound of the error relative to the computed value. -/
def relErr : ℚ := 1 / (2 ^ prec - 1)

theorem roundoff_lt : roundoff < 1 := by
  unfold roundoff
  rw [div_lt_one (by positivity)]
  exact one_lt_pow₀ (by norm_num) (by omega)

theorem relErr_eq : relErr = roundoff / (1 - roundoff) := by
  have h : (1 : ℚ) < 2 ^ (sig + 1) := one_lt_pow₀ (by norm_num) (by omega)
  unfold relErr roundoff prec
  have h1 : (2 : ℚ) ^ (sig + 1) - 1 ≠ 0 := by linarith
  field_simp

theorem relErr_pos : 0 < relErr := by
  rw [relErr_eq]
  exact div_pos roundoff_pos (by linarith [roundoff_lt])

/-- From the error relative to the exact value to the error relative to the computed one. -/
theorem relErr_of {d z t : ℚ} (h : |d - z| ≤ roundoff * |z| + t) :
    |d - z| ≤ relErr * |d| + (1 + relErr) * t := by
  have hu := roundoff_pos
  have hu1 := roundoff_lt
  have h1 : |z| ≤ |d| + |d - z| := by
    have := abs_sub_abs_le_abs_sub z d
    rw [abs_sub_comm] at this
    linarith
  have h2 : (1 - roundoff) * |z| ≤ |d| + t := by linarith
  have h3 : roundoff * |z| ≤ relErr * (|d| + t) := by
    rw [relErr_eq, div_mul_eq_mul_div, le_div_iff₀ (by linarith)]
    nlinarith
  nlinarith

/-- All coefficients are finite. -/
def FinitePoly (p : Poly Flt) : Prop := ∀ t ∈ p, t.coef.value ≠ none

/-- The polynomial with the rational values of the coefficients. -/
noncomputable def vpoly (n : ℕ) (p : Poly Flt) : MvPolynomial (Fin n) ℚ :=
  (p.map fun t => monomial (t.mdeg.toF (Fin n)) t.coef.val).sum

variable {n : ℕ}

theorem vpoly_cons (t : Term Flt) (p : Poly Flt) :
    vpoly n (t :: p) = monomial (t.mdeg.toF (Fin n)) t.coef.val + vpoly n p := by
  simp [vpoly]

theorem vpoly_nil : vpoly n [] = 0 := rfl

theorem coeff_vpoly_none {p : Poly Flt} {e : Fin n →₀ ℕ} (h : ∀ t ∈ p, t.mdeg.toF (Fin n) ≠ e) :
    coeff e (vpoly n p) = 0 := by
  classical
  induction p with
  | nil => rfl
  | cons t p ih =>
    rw [vpoly_cons, coeff_add, coeff_monomial, if_neg (h t (by simp)), ih fun u hu => h u (by simp [hu]), zero_add]

/-- Distinct multidegrees, all of them canonical and in `n` variables. -/
structure Distinct (n : ℕ) (p : Poly Flt) : Prop where
  nodup : (p.map (·.mdeg)).Nodup
  degs : ∀ t ∈ p, t.mdeg.Clean ∧ t.mdeg.InVars (Fin n)

theorem Distinct.tail {t : Term Flt} {p : Poly Flt} (h : Distinct n (t :: p)) : Distinct n p :=
  ⟨(List.nodup_cons.mp h.nodup).2, fun u hu => h.degs u (by simp [hu])⟩

theorem Distinct.nil : Distinct n [] := ⟨by simp, by simp⟩

theorem coeff_vpoly {p : Poly Flt} (hp : Distinct n p) {m : MDeg} (hm : m.Clean ∧ m.InVars (Fin n)) :
    coeff (m.toF (Fin n)) (vpoly n p) = (coefAt p m).val := by
  classical
  induction p with
  | nil => rw [coefAt_nil, val_zero]; rfl
  | cons t p ih =>
    have ht := hp.degs t (by simp)
    rw [vpoly_cons, coeff_add, coeff_monomial]
    by_cases h : t.mdeg = m
    · subst h
      rw [if_pos rfl, coefAt_cons_eq, coeff_vpoly_none, add_zero]
      intro u hu e
      have hu' := hp.degs u (by simp [hu])
      have e := MDeg.toF_inj hu'.1 ht.1 hu'.2 ht.2 e
      exact (List.nodup_cons.mp hp.nodup).1 (List.mem_map.mpr ⟨u, hu, e⟩)
    · rw [if_neg fun e => h (MDeg.toF_inj ht.1 hm.1 ht.2 hm.2 e), zero_add, ih hp.tail, coefAt_cons_ne h]

theorem coeff_vpoly_le {p : Poly Flt} (hp : Distinct n p) {M : ℚ} (hM : 0 ≤ M)
    (h : ∀ t ∈ p, |t.coef.val| ≤ M) (e : Fin n →₀ ℕ) : |coeff e (vpoly n p)| ≤ M := by
  by_cases hex : ∃ t ∈ p, t.mdeg.toF (Fin n) = e
  · obtain ⟨t, ht, rfl⟩ := hex
    rw [coeff_vpoly hp (hp.degs t ht), coefAt_mem hp.nodup ht]
    exact h t ht
  · push Not at hex
    rw [coeff_vpoly_none hex, abs_zero]
    exact hM

theorem FinitePoly.coefAt {p : Poly Flt} (h : FinitePoly p) (m : MDeg) : ∃ d, (Flt.coefAt p m).value = some d := by
  by_cases hex : ∃ t ∈ p, t.mdeg = m
  · unfold Flt.coefAt
    obtain ⟨t, ht⟩ := Option.isSome_iff_exists.mp (List.find?_isSome.mpr (by simpa using hex) :
      (p.find? fun t => t.mdeg = m).isSome)
    rw [ht]
    exact Option.ne_none_iff_exists'.mp (h t (List.mem_of_find?_eq_some ht))
  · push Not at hex
    exact ⟨0, by rw [coefAt_not_mem hex]; exact value_zero⟩

theorem FinitePoly.of_coefAt {p : Poly Flt} (hp : (p.map (·.mdeg)).Nodup)
    (h : ∀ m, ∃ d, (Flt.coefAt p m).value = some d) : FinitePoly p := by
  intro t ht
  obtain ⟨d, hd⟩ := h t.mdeg
  rw [coefAt_mem hp ht] at hd
  rw [hd]; simp

variable (powi : Flt → Int → Flt)

/-- The error of a difference. -/
theorem sub_vpoly {p q r : Poly Flt} (hp : Distinct n p) (hq : Distinct n q)
    (h : letI := field .debug powi; Poly.sub p q = .ok r) :
    Distinct n r ∧ (FinitePoly r → FinitePoly p ∧ FinitePoly q ∧
      ∀ e, |coeff e (vpoly n r) - (coeff e (vpoly n p) - coeff e (vpoly n q))| ≤ relErr * |coeff e (vpoly n r)|) := by
  let _ := field .debug powi
  obtain ⟨r', h1, h2, h3⟩ := C132_sub .debug powi p q hp.nodup hq.nodup
  obtain rfl : r' = r := Res.ok.inj (h1.symm.trans h)
  have hr : Distinct n r' := ⟨h2, Poly.Degs.sub (n := n) hp.degs hq.degs h⟩
  refine ⟨hr, fun hf => ⟨.of_coefAt hp.nodup fun m => ?_, .of_coefAt hq.nodup fun m => ?_, fun e => ?_⟩⟩
  · obtain ⟨d, hd⟩ := hf.coefAt m
    obtain ⟨x, y, hx, -⟩ := (h3 m).1 d hd
    exact ⟨x, hx⟩
  · obtain ⟨d, hd⟩ := hf.coefAt m
    obtain ⟨x, y, -, hy, -⟩ := (h3 m).1 d hd
    exact ⟨y, hy⟩
  · have key : ∀ m : MDeg, m.Clean ∧ m.InVars (Fin n) → m.toF (Fin n) = e →
        |coeff e (vpoly n r') - (coeff e (vpoly n p) - coeff e (vpoly n q))| ≤ relErr * |coeff e (vpoly n r')| := by
      rintro m hm rfl
      obtain ⟨d, hd⟩ := hf.coefAt m
      obtain ⟨x, y, hx, hy, herr⟩ := (h3 m).1 d hd
      rw [coeff_vpoly hr hm, coeff_vpoly hp hm, coeff_vpoly hq hm, val_eq hd, val_eq hx, val_eq hy]
      have := relErr_of (d := d) (z := x - y) (t := 0) (by rw [add_zero]; exact herr)
      simpa using this
    by_cases h4 : ∃ t ∈ p, t.mdeg.toF (Fin n) = e
    · obtain ⟨t, ht, he⟩ := h4; exact key _ (hp.degs t ht) he
    by_cases h5 : ∃ t ∈ q, t.mdeg.toF (Fin n) = e
    · obtain ⟨t, ht, he⟩ := h5; exact key _ (hq.degs t ht) he
    by_cases h6 : ∃ t ∈ r', t.mdeg.toF (Fin n) = e
    · obtain ⟨t, ht, he⟩ := h6; exact key _ (hr.degs t ht) he
    push Not at h4 h5 h6
    rw [coeff_vpoly_none h4, coeff_vpoly_none h5, coeff_vpoly_none h6]
    simp

/-- The error of the sum with a term. -/
theorem addTerm_vpoly {p r : Poly Flt} {u : Term Flt} (hp : Distinct n p) (hu : u.mdeg.Clean ∧ u.mdeg.InVars (Fin n))
    (h : letI := field .debug powi; Poly.addTerm p u = .ok r) :
    Distinct n r ∧ (FinitePoly r → FinitePoly p ∧ u.coef.value ≠ none ∧
      ∃ δ, vpoly n r = vpoly n p + monomial (u.mdeg.toF (Fin n)) u.coef.val + monomial (u.mdeg.toF (Fin n)) δ ∧
        |δ| ≤ relErr * |coeff (u.mdeg.toF (Fin n)) (vpoly n r)|) := by
  classical
  let _ := field .debug powi
  obtain ⟨r', h1, h2, h3, h4⟩ := addTerm_coefAt .debug powi u hp.nodup
  obtain rfl : r' = r := Res.ok.inj (h1.symm.trans h)
  have hr : Distinct n r' := ⟨h2, fun t ht => by
    rcases Poly.addTerm_mdeg _ _ _ h t ht with h | h
    · obtain ⟨v, hv, e⟩ := List.mem_map.mp h
      rw [← e]; exact hp.degs v hv
    · rw [h]; exact hu⟩
  refine ⟨hr, fun hf => ?_⟩
  obtain ⟨d, hd⟩ := hf.coefAt u.mdeg
  obtain ⟨⟨x, hx⟩, y, hy⟩ := h4.finite hd
  have herr := h4.error hx hy hd
  refine ⟨.of_coefAt hp.nodup fun m => ?_, by rw [hy]; simp, d - (x + y), ?_, ?_⟩
  · by_cases hm : m = u.mdeg
    · exact ⟨x, hm ▸ hx⟩
    · rw [← h3 m hm]; exact hf.coefAt m
  · refine MvPolynomial.ext _ _ fun e => ?_
    rw [coeff_add, coeff_add, coeff_monomial, coeff_monomial]
    by_cases he : u.mdeg.toF (Fin n) = e
    · subst he
      rw [if_pos rfl, if_pos rfl, coeff_vpoly hr hu, coeff_vpoly hp hu, val_eq hd, val_eq hx, val_eq hy]
      ring
    · rw [if_neg he, if_neg he, add_zero, add_zero]
      have key : ∀ m : MDeg, m.Clean ∧ m.InVars (Fin n) → m.toF (Fin n) = e →
          coeff e (vpoly n r') = coeff e (vpoly n p) := by
        rintro m hm rfl
        rw [coeff_vpoly hr hm, coeff_vpoly hp hm, h3 m fun e => he (by rw [e])]
      by_cases h5 : ∃ t ∈ p, t.mdeg.toF (Fin n) = e
      · obtain ⟨t, ht, he⟩ := h5; exact key _ (hp.degs t ht) he
      by_cases h6 : ∃ t ∈ r', t.mdeg.toF (Fin n) = e
      · obtain ⟨t, ht, he⟩ := h6; exact key _ (hr.degs t ht) he
      push Not at h5 h6
      rw [coeff_vpoly_none h5, coeff_vpoly_none h6]
  · rw [coeff_vpoly hr hu, val_eq hd]
    have := relErr_of (d := d) (z := x + y) (t := 0) (by rw [add_zero]; exact herr)
    simpa using this

omit [Fmt] in
theorem toF_add {a b c : MDeg} (ha : a.Clean) (hb : b.Clean) (h : MDeg.add .debug a b = .ok c) :
    c.toF (Fin n) = a.toF (Fin n) + b.toF (Fin n) := by
  have := (MDeg.add_spec ha hb).of_ok h
  ext i
  rw [Finsupp.add_apply]
  exact this.2 _

/-- The error of the product with a term. -/
theorem mulTerm_vpoly {g r : Poly Flt} {s : Term Flt} (hg : letI := field .debug powi; g.Canonical)
    (hd : letI := field .debug powi; g.Degs n) (hs : s.mdeg.Clean ∧ s.mdeg.InVars (Fin n))
    (h : letI := field .debug powi; Poly.mulTerm g s = .ok r) :
    Distinct n r ∧ (FinitePoly r → ∀ e,
      |coeff e (vpoly n r) - coeff e (monomial (s.mdeg.toF (Fin n)) s.coef.val * vpoly n g)| ≤
        relErr * |coeff e (vpoly n r)| + (1 + relErr) * tiny) := by
  classical
  let _ := field .debug powi
  have hpos : ∀ x : ℚ, 0 ≤ relErr * |x| + (1 + relErr) * tiny := fun x => by
    have := relErr_pos; have := tiny_pos; positivity
  by_cases hz : s.isZero = true
  · have hv : s.coef.val = 0 := val_eq (eq_zero_value hz)
    have : r = [] := by
      unfold Poly.mulTerm at h
      rw [if_pos (by rw [hz]; rfl)] at h
      exact (Res.ok.inj h).symm
    subst this
    refine ⟨.nil, fun _ e => ?_⟩
    rw [hv, vpoly_nil]
    simpa using hpos 0
  · have hz : s.isZero = false := by simpa using hz
    have hnd := (mulTerm_coefAt powi hg hd hs.1 hz h).1
    have hrd : Poly.Degs n r := Poly.Degs.mulTerm rfl hd hs h
    refine ⟨⟨hnd, hrd⟩, fun hf e => ?_⟩
    replace h := (C123_mul_term g r s hg.ne hz).mp h
    clear hg
    have hzero : ∀ (g r : Poly Flt), Poly.Degs n g →
        List.Forall₂ (fun t u : Term Flt => RField.mul t.coef s.coef = .ok u.coef ∧
          MDeg.add .debug t.mdeg s.mdeg = .ok u.mdeg) g r →
        (∀ u ∈ r, u.mdeg.toF (Fin n) ≠ e) →
        coeff e (monomial (s.mdeg.toF (Fin n)) s.coef.val * vpoly n g) = 0 := by
      intro g r hd h
      induction h with
      | nil => intro _; rw [vpoly_nil, mul_zero, coeff_zero]
      | @cons t u g r htu _ ih =>
        intro hne
        rw [vpoly_cons, mul_add, coeff_add, ih (fun x hx => hd x (by simp [hx])) fun v hv => hne v (by simp [hv]),
          add_zero, monomial_mul, coeff_monomial, if_neg]
        rw [add_comm, ← toF_add (hd t (by simp)).1 hs.1 htu.2]
        exact hne u (by simp)
    induction h with
    | nil => simpa [vpoly_nil] using hpos 0
    | @cons t u g r htu hgr ih =>
      have hr : Distinct n (u :: r) := ⟨hnd, hrd⟩
      have hadd := toF_add (n := n) (hd t (by simp)).1 hs.1 htu.2
      have hmul : mul t.coef s.coef = u.coef := by
        have := htu.1
        injection this
      have hd' : Poly.Degs n g := fun x hx => hd x (by simp [hx])
      rw [vpoly_cons, vpoly_cons, mul_add, coeff_add, coeff_add, monomial_mul, coeff_monomial, coeff_monomial,
        add_comm (MDeg.toF (Fin n) s.mdeg), ← hadd]
      by_cases he : u.mdeg.toF (Fin n) = e
      · subst he
        have hne : ∀ v ∈ r, v.mdeg.toF (Fin n) ≠ u.mdeg.toF (Fin n) := by
          intro v hv he
          have h1 := hrd v (by simp [hv])
          have h2 := hrd u (by simp)
          have he := MDeg.toF_inj h1.1 h2.1 h1.2 h2.2 he
          exact (List.nodup_cons.mp hnd).1 (List.mem_map.mpr ⟨v, hv, he⟩)
        rw [if_pos rfl, if_pos rfl, coeff_vpoly_none hne, hzero g r hd' hgr hne, add_zero, add_zero]
        obtain ⟨d, hd⟩ := Option.ne_none_iff_exists'.mp (hf u (by simp))
        rw [← hmul] at hd
        obtain ⟨⟨x, hx⟩, y, hy⟩ := mul_finite hd
        rw [← hmul, val_eq hd, val_eq hx, val_eq hy, mul_comm y x]
        exact relErr_of (mul_error hx hy hd)
      · rw [if_neg he, if_neg he, zero_add, zero_add]
        exact ih hd' hr.tail.nodup hr.tail.degs fun x hx => hf x (by simp [hx])

/-- Bound of the error of a step in which a multiple of a divisor is subtracted. -/
def reduceError (Mf Mq G : ℚ) : ℚ := relErr * ((3 + relErr) * Mf + Mq * G) + (1 + relErr) * tiny

theorem reduceError_nonneg {Mf Mq G : ℚ} (h1 : 0 ≤ Mf) (h2 : 0 ≤ Mq) (h3 : 0 ≤ G) : 0 ≤ reduceError Mf Mq G := by
  have := relErr_pos
  have := tiny_pos
  unfold reduceError
  positivity

/-- The error of the subtraction of a multiple of a divisor. -/
theorem reduce_vpoly {f f' g q q' ag : Poly Flt} {a : Term Flt} (hf : Distinct n f) (hq : Distinct n q)
    (hg : letI := field .debug powi; g.Canonical) (hd : letI := field .debug powi; g.Degs n)
    (ha : a.mdeg.Clean ∧ a.mdeg.InVars (Fin n))
    (h1 : letI := field .debug powi; Poly.addTerm q a = .ok q')
    (h2 : letI := field .debug powi; Poly.mulTerm g a = .ok ag)
    (h3 : letI := field .debug powi; Poly.sub f ag = .ok f') :
    Distinct n f' ∧ Distinct n q' ∧ (FinitePoly f' → FinitePoly q' → FinitePoly f ∧ FinitePoly q ∧
      ∀ Mf Mq G : ℚ, 0 ≤ Mf → 0 ≤ Mq → 0 ≤ G → (∀ t ∈ f, |t.coef.val| ≤ Mf) → (∀ t ∈ f', |t.coef.val| ≤ Mf) →
        (∀ t ∈ q', |t.coef.val| ≤ Mq) → (∀ t ∈ g, |t.coef.val| ≤ G) →
        ∀ e, |coeff e (vpoly n f' + vpoly n q' * vpoly n g) - coeff e (vpoly n f + vpoly n q * vpoly n g)| ≤
          reduceError Mf Mq G) := by
  classical
  obtain ⟨d1, k1⟩ := addTerm_vpoly powi hq ha h1
  obtain ⟨d2, k2⟩ := mulTerm_vpoly powi hg hd ha h2
  obtain ⟨d3, k3⟩ := sub_vpoly powi hf d2 h3
  refine ⟨d3, d1, fun ff fq => ?_⟩
  obtain ⟨f1, f2, e3⟩ := k3 ff
  obtain ⟨f3, -, δ, e1, e1'⟩ := k1 fq
  refine ⟨f1, f3, fun Mf Mq G hMf hMq hG bf bf' bq bg e => ?_⟩
  have c1 := coeff_vpoly_le hf hMf bf e
  have c2 := coeff_vpoly_le d3 hMf bf' e
  have c3 := coeff_vpoly_le d1 hMq bq (a.mdeg.toF (Fin n))
  have hgd : Distinct n g := by
    let _ := field .debug powi
    exact ⟨hg.nodup, hd⟩
  have c4 : |coeff e (monomial (a.mdeg.toF (Fin n)) δ * vpoly n g)| ≤ relErr * Mq * G := by
    have hv := relErr_pos
    rw [coeff_monomial_mul']
    split
    · rw [abs_mul]
      exact mul_le_mul (e1'.trans (mul_le_mul_of_nonneg_left c3 hv.le)) (coeff_vpoly_le hgd hG bg _) (abs_nonneg _)
        (by positivity)
    · rw [abs_zero]; positivity
  have e2 := k2 f2 e
  have e3 := e3 e
  rw [e1, coeff_add, coeff_add, add_mul, add_mul, coeff_add, coeff_add]
  generalize coeff e (vpoly n f) = F at *
  generalize coeff e (vpoly n f') = F' at *
  generalize coeff e (vpoly n ag) = A at *
  generalize coeff e (monomial (a.mdeg.toF (Fin n)) a.coef.val * vpoly n g) = P at *
  generalize coeff e (monomial (a.mdeg.toF (Fin n)) δ * vpoly n g) = D at *
  generalize coeff e (vpoly n q * vpoly n g) = Q at *
  have hv := relErr_pos
  have ht := tiny_pos
  unfold reduceError
  generalize relErr = v at *
  generalize tiny = t at *
  have b1 : |F' - (F - A)| ≤ v * Mf := e3.trans (mul_le_mul_of_nonneg_left c2 hv.le)
  have b2 : |A| ≤ (2 + v) * Mf := by
    have : A = (F' - (F - A)) - F' + F := by ring
    rw [this]
    have h4 := abs_add_le (F' - (F - A) - F') F
    have h5 := abs_sub (F' - (F - A)) F'
    nlinarith
  have b3 : |A - P| ≤ v * ((2 + v) * Mf) + (1 + v) * t :=
    e2.trans (by have := mul_le_mul_of_nonneg_left b2 hv.le; linarith)
  have : F' + (Q + P + D) - (F + Q) = (F' - (F - A)) - (A - P) + D := by ring
  rw [this]
  have h4 := abs_add_le ((F' - (F - A)) - (A - P)) D
  have h5 := abs_sub (F' - (F - A)) (A - P)
  nlinarith

/-- The sum of the products of divisors and quotients. -/
noncomputable def total (n : ℕ) (divs qs : List (Poly Flt)) : MvPolynomial (Fin n) ℚ :=
  (List.zipWith (fun g q => vpoly n q * vpoly n g) divs qs).sum

theorem total_cons (g q : Poly Flt) (divs qs : List (Poly Flt)) :
    total n (g :: divs) (q :: qs) = vpoly n q * vpoly n g + total n divs qs := by simp [total]

/-- What the inner loop of `divide` achieves: the errors, and finite results come from finite arguments. -/
def ForError (n : ℕ) (f f' : Poly Flt) (divs qs qs' : List (Poly Flt)) : Prop :=
  Distinct n f' ∧ (∀ q ∈ qs', Distinct n q) ∧ qs'.length = divs.length ∧
    (FinitePoly f' → (∀ q ∈ qs', FinitePoly q) → FinitePoly f ∧ (∀ q ∈ qs, FinitePoly q) ∧
      ∀ Mf Mq G : ℚ, 0 ≤ Mf → 0 ≤ Mq → 0 ≤ G → (∀ t ∈ f, |t.coef.val| ≤ Mf) → (∀ t ∈ f', |t.coef.val| ≤ Mf) →
        (∀ q ∈ qs', ∀ t ∈ q, |t.coef.val| ≤ Mq) → (∀ g ∈ divs, ∀ t ∈ g, |t.coef.val| ≤ G) →
        ∀ e, |coeff e (vpoly n f' + total n divs qs') - coeff e (vpoly n f + total n divs qs)| ≤
          reduceError Mf Mq G)

/-- The error of the inner loop. -/
theorem divideFor_vpoly (k : OrdKind) {ltF : Term Flt} {f f' : Poly Flt}
    (hlt : ltF.mdeg.Clean ∧ ltF.mdeg.InVars (Fin n)) (hf : Distinct n f) (divs qs qs' : List (Poly Flt))
    (hg : letI := field .debug powi; ∀ g ∈ divs, g.Canonical ∧ g.Degs n) (hq : ∀ q ∈ qs, Distinct n q)
    (hl : qs.length = divs.length)
    (h : letI := field .debug powi; divideFor (k.order .debug) ltF f (divs.zip qs) = .ok (some (qs', f'))) :
    ForError n f f' divs qs qs' := by
  let _ := field .debug powi
  induction divs generalizing qs qs' with
  | nil => cases h
  | cons g divs ih =>
    rcases qs with _ | ⟨q, qs⟩
    · simp at hl
    have hgg := hg g (by simp)
    have next : ∀ c : Option (List (Poly Flt) × Poly Flt) → Res (Option (List (Poly Flt) × Poly Flt)),
        c none = pure none → (∀ qs f', c (some (qs, f')) = pure (some (q :: qs, f'))) →
        divideFor (k.order .debug) ltF f (divs.zip qs) >>= c = .ok (some (qs', f')) →
        ForError n f f' (g :: divs) (q :: qs) qs' := by
      intro c hc1 hc2 ho
      rw [bind_eq_ok] at ho
      obtain ⟨o', ho', ho⟩ := ho
      rcases o' with _ | ⟨qs₁, f₁⟩
      · rw [hc1] at ho; cases ho
      · rw [hc2] at ho
        cases ho
        obtain ⟨i1, i2, i3, i4⟩ := ih qs qs₁ (fun x hx => hg x (by simp [hx])) (fun x hx => hq x (by simp [hx]))
          (by simpa using hl) ho'
        refine ⟨i1, ?_, by simp [i3], fun ff fq => ?_⟩
        · intro x hx
          rcases List.mem_cons.mp hx with rfl | hx
          · exact hq _ (by simp)
          · exact i2 x hx
        · obtain ⟨j1, j2, j3⟩ := i4 ff fun x hx => fq x (by simp [hx])
          refine ⟨j1, ?_, fun Mf Mq G h1 h2 h3 h4 h5 h6 h7 e => ?_⟩
          · intro x hx
            rcases List.mem_cons.mp hx with rfl | hx
            · exact fq _ (by simp)
            · exact j2 x hx
          · have := j3 Mf Mq G h1 h2 h3 h4 h5 (fun x hx => h6 x (by simp [hx])) (fun x hx => h7 x (by simp [hx])) e
            rw [total_cons, total_cons]
            simp only [coeff_add] at this ⊢
            convert this using 2
            ring
    rw [List.zip_cons_cons, divideFor, bind_eq_ok] at h
    obtain ⟨ol, hol, h⟩ := h
    rcases ol with _ | ltG
    · exact next _ (by rfl) (by intros; rfl) h
    · have hG := leadingTerm_mem k hgg.2 hol
      rw [bind_eq_ok] at h
      obtain ⟨oa, hoa, h⟩ := h
      rcases oa with _ | a
      · exact next _ (by rfl) (by intros; rfl) h
      · clear next
        simp only [bind_eq_ok] at h
        obtain ⟨q', h1, ag, h2, f'', h3, h⟩ := h
        have hzip : (divs.zip qs).map (·.2) = qs := by
          have := List.map_snd_zip (l₁ := divs) (l₂ := qs) (by simp at hl; omega)
          exact this
        rw [hzip] at h
        cases h
        have ha := tryDiv_degs hlt (hgg.2 _ hG.1).1 hoa
        obtain ⟨i1, i2, i3⟩ := reduce_vpoly powi hf (hq q (by simp)) hgg.1 hgg.2 ha h1 h2 h3
        refine ⟨i1, ?_, by simpa using hl, fun ff fq => ?_⟩
        · intro x hx
          rcases List.mem_cons.mp hx with rfl | hx
          · exact i2
          · exact hq x (by simp [hx])
        · obtain ⟨j1, j2, j3⟩ := i3 ff (fq _ (by simp))
          refine ⟨j1, ?_, fun Mf Mq G h1 h2 h3 h4 h5 h6 h7 e => ?_⟩
          · intro x hx
            rcases List.mem_cons.mp hx with rfl | hx
            · exact j2
            · exact fq x (by simp [hx])
          · have := j3 Mf Mq G h1 h2 h3 h4 h5 (h6 q' (by simp)) (h7 g (by simp)) e
            rw [total_cons, total_cons]
            simp only [coeff_add] at this ⊢
            convert this using 2
            ring

/-- The states of the loop of `divide` after the first one, up to the result. -/
inductive DivTrace [RField Flt] (O : MOrder) (divs : List (Poly Flt)) :
    DivState Flt → List (DivState Flt) → Poly Flt × List (Poly Flt) → Prop
  | stop {s x} : divideStep O divs s = .ok (.inr x) → DivTrace O divs s [] x
  | next {s s' l x} : divideStep O divs s = .ok (.inl s') → DivTrace O divs s' l x → DivTrace O divs s (s' :: l) x

theorem divTrace_of_loop [RField Flt] (O : MOrder) (divs : List (Poly Flt)) (s : DivState Flt)
    (x : Poly Flt × List (Poly Flt)) (h : Res.loop (divideStep O divs) s = .ok x) : ∃ l, DivTrace O divs s l x := by
  obtain ⟨m, hm⟩ := iter_of_loop_ne_diverge (step := divideStep O divs) (s := s) (by rw [h]; simp)
  rw [h] at hm
  clear h
  induction m generalizing s with
  | zero => cases hm
  | succ m ih =>
    rw [iter, bind_eq_ok] at hm
    obtain ⟨y, hy, hm⟩ := hm
    rcases y with s' | x'
    · obtain ⟨l, hl⟩ := ih s' hm
      exact ⟨s' :: l, .next hy hl⟩
    · cases hm
      exact ⟨[], .stop hy⟩

/-- The polynomials of a state have distinct multidegrees in `n` variables. -/
structure StateOk (n : ℕ) (divs : List (Poly Flt)) (s : DivState Flt) : Prop where
  f : Distinct n s.f
  qs : ∀ q ∈ s.quotients, Distinct n q
  len : s.quotients.length = divs.length
  r : Distinct n s.remainder

/-- All coefficients of a state are finite. -/
structure StateFinite (s : DivState Flt) : Prop where
  f : FinitePoly s.f
  qs : ∀ q ∈ s.quotients, FinitePoly q
  r : FinitePoly s.remainder

/-- Bounds of the coefficients of a state. -/
structure StateLe (Mf Mq : ℚ) (s : DivState Flt) : Prop where
  f : ∀ t ∈ s.f, |t.coef.val| ≤ Mf
  qs : ∀ q ∈ s.quotients, ∀ t ∈ q, |t.coef.val| ≤ Mq

/-- What a state stands for: `f + q_1 g_1 + ... + q_m g_m + r`. -/
noncomputable def stateVal (n : ℕ) (divs : List (Poly Flt)) (s : DivState Flt) : MvPolynomial (Fin n) ℚ :=
  vpoly n s.f + total n divs s.quotients + vpoly n s.remainder

theorem vpoly_perm {p q : Poly Flt} (h : p.Perm q) : vpoly n p = vpoly n q := by
  unfold vpoly
  exact (h.map _).sum_eq

/-- The error of a step: moving a term to the remainder is exact. -/
theorem divideStep_vpoly (k : OrdKind) {B : (k.mathlib n).syn} (divs : List (Poly Flt)) (s s' : DivState Flt)
    (hi : letI := field .debug powi; SortInv k n B divs s)
    (hg : letI := field .debug powi; ∀ g ∈ divs, g.Canonical ∧ g.Degs n) (hs : StateOk n divs s)
    (h : letI := field .debug powi; divideStep (k.order .debug) divs s = .ok (.inl s')) :
    StateOk n divs s' ∧ (StateFinite s' → StateFinite s ∧
      ∀ Mf Mq G : ℚ, 0 ≤ Mf → 0 ≤ Mq → 0 ≤ G → StateLe Mf Mq s → StateLe Mf Mq s' →
        (∀ g ∈ divs, ∀ t ∈ g, |t.coef.val| ≤ G) →
        ∀ e, |coeff e (stateVal n divs s') - coeff e (stateVal n divs s)| ≤
          (1 + s.remainder.length - s'.remainder.length) * reduceError Mf Mq G) := by
  let _ := field .debug powi
  rw [divideStep, bind_eq_ok] at h
  obtain ⟨ol, hol, h⟩ := h
  rcases ol with _ | ltF
  · cases h
  · obtain ⟨hm, -⟩ := leadingTerm_mem (n := n) k hs.f.degs hol
    rw [bind_eq_ok] at h
    obtain ⟨o, ho, h⟩ := h
    rcases o with _ | ⟨qs', f'⟩
    · rw [bind_eq_ok] at h
      obtain ⟨sorted, hso, h⟩ := h
      obtain ⟨hp, -⟩ := sort_degs (n := n) k hs.f.degs hso
      have hsd : Distinct n sorted :=
        ⟨(hp.map _).nodup_iff.mpr hs.f.nodup, fun t ht => hs.f.degs t (hp.mem_iff.mp ht)⟩
      split at h
      · rename_i hlast
        rw [List.getLast?_eq_none_iff] at hlast
        subst hlast
        have := hp.symm.eq_nil
        rw [this] at hm
        simp at hm
      · rename_i lt hlast
        obtain ⟨l', rfl⟩ := List.getLast?_eq_some_iff.mp hlast
        rw [bind_eq_ok] at h
        obtain ⟨r', hr', h⟩ := h
        cases h
        have hlt := hsd.degs lt (by simp)
        have hltm : lt ∈ s.f := hp.mem_iff.mp (by simp)
        have hpush := addTerm_append (hi.canon.ne _ hltm) fun u hu e => by
          have := hi.above u hu lt hltm
          unfold Term.syn at this
          rw [e] at this
          exact lt_irrefl _ this
        rw [hpush] at hr'
        obtain rfl := Res.ok.inj hr'
        have d1 := (addTerm_vpoly powi hs.r hlt hpush).1
        have hd' : Distinct n l' := ⟨by
          have := hsd.nodup
          rw [List.map_append, List.nodup_append] at this
          exact this.1, fun t ht => hsd.degs t (by simp [ht])⟩
        rw [List.dropLast_concat]
        refine ⟨⟨hd', hs.qs, hs.len, d1⟩, fun fs => ?_⟩
        refine ⟨⟨fun t ht => ?_, fs.qs, fun t ht => fs.r t (by simp [ht])⟩, fun Mf Mq G hMf hMq hG b1 b2 b3 e => ?_⟩
        · rcases List.mem_append.mp (hp.mem_iff.mpr ht) with h | h
          · exact fs.f t h
          · rw [List.mem_singleton.mp h]; exact fs.r lt (by simp)
        · have e3 : stateVal n divs ⟨l', s.quotients, s.remainder ++ [lt]⟩ = stateVal n divs s := by
            unfold stateVal
            rw [← vpoly_perm hp]
            simp only [vpoly, List.map_append, List.sum_append]
            ring
          rw [e3, sub_self, abs_zero, List.length_append, List.length_singleton]
          push_cast
          rw [add_comm 1, sub_self, zero_mul]
    · cases h
      obtain ⟨i1, i2, i3, i4⟩ := divideFor_vpoly powi k (hs.f.degs _ hm) hs.f divs s.quotients qs' hg hs.qs hs.len ho
      refine ⟨⟨i1, i2, i3, hs.r⟩, fun fs => ?_⟩
      obtain ⟨j1, j2, j3⟩ := i4 fs.f fs.qs
      refine ⟨⟨j1, j2, fs.r⟩, fun Mf Mq G hMf hMq hG b1 b2 b3 e => ?_⟩
      rw [add_sub_cancel_right, one_mul]
      have := j3 Mf Mq G hMf hMq hG b1.f b2.f b2.qs b3 e
      unfold stateVal
      simp only [coeff_add] at this ⊢
      rw [add_sub_add_right_eq_sub]
      exact this

/-- The error of a run. -/
theorem trace_error (k : OrdKind) {B : (k.mathlib n).syn} (divs : List (Poly Flt))
    (hg : letI := field .debug powi; ∀ g ∈ divs, g.Canonical ∧ g.Degs n) {s : DivState Flt} {l : List (DivState Flt)}
    {x : Poly Flt × List (Poly Flt)} (hs : StateOk n divs s)
    (hi : letI := field .debug powi; SortInv k n B divs s)
    (h : letI := field .debug powi; DivTrace (k.order .debug) divs s l x)
    (h1 : FinitePoly x.1) (h2 : ∀ q ∈ x.2, FinitePoly q) :
    (∀ s' ∈ s :: l, StateFinite s') ∧ ∀ Mf Mq G : ℚ, 0 ≤ Mf → 0 ≤ Mq → 0 ≤ G →
      (∀ s' ∈ s :: l, StateLe Mf Mq s') → (∀ g ∈ divs, ∀ t ∈ g, |t.coef.val| ≤ G) →
      ∀ e, |coeff e (total n divs x.2 + vpoly n x.1) - coeff e (stateVal n divs s)| ≤
        (l.length + s.remainder.length - x.1.length) * reduceError Mf Mq G := by
  let _ := field .debug powi
  induction h with
  | @stop s x h =>
    rw [divideStep, bind_eq_ok] at h
    obtain ⟨ol, hol, h⟩ := h
    rcases ol with _ | ltF
    · cases h
      have hf : s.f = [] := by
        rcases hsf : s.f with _ | ⟨t, p⟩
        · rfl
        · exfalso
          rw [hsf] at hol
          simp only [leadingTerm, maxBy] at hol
          rw [map_eq_pure_bind, bind_eq_ok] at hol
          obtain ⟨_, _, hol⟩ := hol
          cases hol
      refine ⟨?_, fun Mf Mq G _ _ _ _ _ e => ?_⟩
      · simp only [List.mem_singleton, forall_eq]
        exact ⟨by rw [hf]; intro t ht; simp at ht, h2, h1⟩
      · unfold stateVal
        rw [hf, vpoly_nil, zero_add, sub_self]
        simp
    · exfalso
      rw [bind_eq_ok] at h
      obtain ⟨o, ho, h⟩ := h
      rcases o with _ | ⟨qs', f'⟩
      · rw [bind_eq_ok] at h
        obtain ⟨sorted, hso, h⟩ := h
        split at h
        · cases h
        · rw [bind_eq_ok] at h
          obtain ⟨r', hr', h⟩ := h
          cases h
      · cases h
  | @next s s' l x h hl ih =>
    obtain ⟨hs', hstep⟩ := divideStep_vpoly powi k divs s s' hi hg hs h
    obtain ⟨i1, i2⟩ := ih hs' (divideStep_sorted rfl k (fun g h => (hg g h).2) hi h) h1 h2
    obtain ⟨j1, j2⟩ := hstep (i1 s' (by simp))
    refine ⟨?_, fun Mf Mq G hMf hMq hG b1 b2 e => ?_⟩
    · intro s'' hs''
      rcases List.mem_cons.mp hs'' with rfl | hs''
      · exact j1
      · exact i1 s'' hs''
    · have e1 := i2 Mf Mq G hMf hMq hG (fun s'' hs'' => b1 s'' (List.mem_cons_of_mem _ hs'')) b2 e
      have e2 := j2 Mf Mq G hMf hMq hG (b1 s (by simp)) (b1 s' (by simp)) b2 e
      have := abs_sub_le (coeff e (total n divs x.2 + vpoly n x.1)) (coeff e (stateVal n divs s'))
        (coeff e (stateVal n divs s))
      rw [List.length_cons]
      push_cast
      linarith

/-- C227. If `divide` returns a remainder and quotients with finite coefficients, then only finite coefficients have
occurred in the `N` steps of its loop (`states`).  If no coefficient of the dividends met exceeds `Mf` in absolute
value, none of the quotients `Mq` and none of the divisors `G`, then the coefficients of
`f - (q_1 g_1 + ... + q_m g_m + r)`, computed exactly, are at most
`(N - R) (v ((3 + v) Mf + Mq G) + (1 + v) 2^-(unitExp + 1))` in absolute value, where `v = 1 / (2^prec - 1)` and `R` is the
number of terms of the remainder. -/
theorem C227_residual (k : OrdKind) (f : Poly Flt) (divs : List (Poly Flt)) (r : Poly Flt) (qs : List (Poly Flt))
    (hf : letI := field .debug powi; f.Canonical ∧ f.Degs n)
    (hg : letI := field .debug powi; ∀ g ∈ divs, g.Canonical ∧ g.Degs n)
    (h : letI := field .debug powi; divide (k.order .debug) f divs = .ok (r, qs))
    (hr : ∀ t ∈ r, t.coef.value ≠ none) (hq : ∀ q ∈ qs, ∀ t ∈ q, t.coef.value ≠ none) :
    letI := field .debug powi
    ∃ states : List (DivState Flt),
      DivTrace (k.order .debug) divs ⟨f, List.replicate divs.length [], []⟩ states (r, qs) ∧
      (∀ s ∈ ⟨f, List.replicate divs.length [], []⟩ :: states, StateFinite s) ∧
      ∀ Mf Mq G : ℚ, 0 ≤ Mf → 0 ≤ Mq → 0 ≤ G →
        (∀ s ∈ ⟨f, List.replicate divs.length [], []⟩ :: states, (∀ t ∈ s.f, |t.coef.val| ≤ Mf) ∧
          ∀ q ∈ s.quotients, ∀ t ∈ q, |t.coef.val| ≤ Mq) →
        (∀ g ∈ divs, ∀ t ∈ g, |t.coef.val| ≤ G) →
        ∀ e : Fin n →₀ ℕ, |coeff e (vpoly n f -
            ((List.zipWith (fun g q => vpoly n q * vpoly n g) divs qs).sum + vpoly n r))| ≤
          (states.length - r.length) * (relErr * ((3 + relErr) * Mf + Mq * G) + (1 + relErr) * tiny) := by
  let _ := field .debug powi
  obtain ⟨l, hl⟩ := divTrace_of_loop _ _ _ _ h
  have hs : StateOk n divs ⟨f, List.replicate divs.length [], []⟩ :=
    ⟨⟨hf.1.nodup, hf.2⟩, fun q hq => by rw [List.eq_of_mem_replicate hq]; exact .nil, by simp, .nil⟩
  obtain ⟨B, hB⟩ : ∃ B : (k.mathlib n).syn, ∀ t ∈ f, t.syn (k.mathlib n) ≤ B := exists_bound f
  obtain ⟨h1, h2⟩ := trace_error powi k divs hg hs (sortInv_start k divs hf.2 hf.1 hB) hl hr hq
  refine ⟨l, hl, h1, fun Mf Mq G hMf hMq hG b1 b2 e => ?_⟩
  have := h2 Mf Mq G hMf hMq hG (fun s hs => ⟨(b1 s hs).1, (b1 s hs).2⟩) b2 e
  have h0 : stateVal n divs ⟨f, List.replicate divs.length [], []⟩ = vpoly n f := by
    unfold stateVal total
    dsimp only
    rw [vpoly_nil, add_zero, List.sum_eq_zero, add_zero]
    intro x hx
    obtain ⟨i, hi, rfl⟩ := List.mem_iff_getElem.mp hx
    simp [vpoly_nil]
  rw [h0, abs_sub_comm, ← coeff_sub, List.length_nil, Nat.cast_zero, add_zero] at this
  exact this

set_option exponentiation.threshold 3000

/-- `3.0` -/
def three : Flt := fin false (3 * unit)

/-- C227. `x` divided by `3 x + 1` gives the quotient `1.0 / 3.0` and the remainder `-(1.0 / 3.0)`, which are finite; the
arguments meet the hypotheses of `C227_residual`, and the residual is not zero. -/
theorem C227_run (k : OrdKind) : letI := field .debug (fun _ _ => nan)
    divide (k.order .debug) [⟨one, [1]⟩] [[⟨three, [1]⟩, ⟨one, []⟩]] =
      .ok ([⟨neg (div one three), []⟩], [[⟨div one three, []⟩]]) ∧
    (Poly.Canonical [⟨one, [1]⟩] ∧ Poly.Degs 1 ([⟨one, [1]⟩] : Poly Flt)) ∧
    (∀ g ∈ ([[⟨three, [1]⟩, ⟨one, []⟩]] : List (Poly Flt)), g.Canonical ∧ g.Degs 1) ∧
    (div one three).value ≠ none ∧ (neg (div one three)).value ≠ none ∧
    coeff (Finsupp.single 0 1) (vpoly 1 [⟨one, [1]⟩] -
      ((List.zipWith (fun g q => vpoly 1 q * vpoly 1 g) [[⟨three, [1]⟩, ⟨one, []⟩]] [[⟨div one three, []⟩]]).sum +
        vpoly 1 [⟨neg (div one three), []⟩])) ≠ 0 := by
  classical
  let _ := field .debug (fun _ _ => nan)
  have h : MDeg.Clean [1] ∧ MDeg.InVars (Fin 1) [1] := by
    have : MDeg.Clean [1] := ⟨by simp, by simp⟩
    exact ⟨this, (MDeg.inVars_fin this).mpr (by simp)⟩
  have h0 : MDeg.Clean [] ∧ MDeg.InVars (Fin 1) [] := ⟨MDeg.zero_clean, MDeg.InVars.zero⟩
  have e1 : MDeg.toF (Fin 1) [1] = Finsupp.single 0 1 := by
    refine Finsupp.ext fun i => ?_
    rw [Subsingleton.elim i 0, Finsupp.single_eq_same]
    rfl
  have e0 : MDeg.toF (Fin 1) [] = 0 := by
    refine Finsupp.ext fun i => ?_
    rw [Subsingleton.elim i 0]
    rfl
  have hu := unit_posQ
  have hthird : ∃ m, div one three = fin false m ∧ 3 * m ≠ unit := by
    have key : (match div one three with | fin false m => decide (3 * m ≠ unit) | _ => false) = true := by fmt_decide
    split at key
    · next m hm => exact ⟨m, hm, of_decide_eq_true key⟩
    · cases key
  obtain ⟨m, hm, hne⟩ := hthird
  refine ⟨(divideN_approx 20 _ _).eq (by cases k <;> fmt_decide) (by simp), ⟨⟨?_, by simp⟩, ?_⟩, ?_, ?_, ?_, ?_⟩
  · intro t ht; rw [List.mem_singleton.mp ht]; fmt_decide
  · intro t ht; rw [List.mem_singleton.mp ht]; exact h
  · intro g hg
    rw [List.mem_singleton.mp hg]
    refine ⟨⟨?_, by simp⟩, ?_⟩ <;> intro t ht <;> rcases List.mem_cons.mp ht with rfl | ht
    · fmt_decide
    · rw [List.mem_singleton.mp ht]; fmt_decide
    · exact h
    · rw [List.mem_singleton.mp ht]; exact h0
  · rw [hm]; simp [value]
  · rw [hm]; simp [value, neg]
  · have hs : (Finsupp.single 0 1 : Fin 1 →₀ ℕ) ≠ 0 := by simp
    have v1 : one.val = 1 := val_eq value_one
    have v3 : three.val = 3 := val_eq (by simp [value, three, units, hu.ne'])
    have vm : (fin false m).val = m / unit := val_eq (by simp [value, units])
    rw [hm]
    simp only [List.zipWith_cons_cons, List.zipWith_nil_right, List.sum_cons, List.sum_nil, vpoly_cons, vpoly_nil,
      e1, e0, add_zero, v1, v3, vm, mul_add, monomial_mul, zero_add, coeff_sub, coeff_add, coeff_monomial, if_true,
      hs.symm, if_false]
    intro h
    apply hne
    have : (unit : ℚ) = 3 * m := by
      field_simp at h
      linarith
    exact_mod_cast this.symm

/-- C229, a case over `f32` and `f64`: `x^2 + y` divided by `3 x + 1` leaves `y + 1/9`, with the quotient `1/3 x - 1/9`; the
thirds and ninths are rounded. -/
theorem C229_run (k : OrdKind) : letI := field .debug (fun _ _ => nan)
    divide (k.order .debug) [⟨one, [2]⟩, ⟨one, [0, 1]⟩] [[⟨three, [1]⟩, ⟨one, []⟩]] =
      .ok ([⟨one, [0, 1]⟩, ⟨neg (div (neg (div one three)) three), []⟩],
        [[⟨div one three, [1]⟩, ⟨div (neg (div one three)) three, []⟩]]) ∧
    Poly.Canonical ([⟨one, [2]⟩, ⟨one, [0, 1]⟩] : Poly Flt) ∧ Poly.Degs 2 ([⟨one, [2]⟩, ⟨one, [0, 1]⟩] : Poly Flt) ∧
    Poly.Degs 2 ([⟨three, [1]⟩, ⟨one, []⟩] : Poly Flt) := by
  let _ := field .debug (fun _ _ => nan)
  have hdeg : ∀ m : MDeg, MDeg.Clean m → m.length ≤ 2 → MDeg.Clean m ∧ MDeg.InVars (Fin 2) m := fun m h1 h2 =>
    ⟨h1, (MDeg.inVars_fin h1).mpr h2⟩
  refine ⟨(divideN_approx 20 _ _).eq (by cases k <;> fmt_decide) (by simp), ⟨?_, by simp⟩, ?_, ?_⟩
  · intro t ht
    rcases List.mem_cons.mp ht with rfl | ht
    · fmt_decide
    · rw [List.mem_singleton.mp ht]; fmt_decide
  · intro t ht
    rcases List.mem_cons.mp ht with rfl | ht
    · exact hdeg _ ⟨by simp, by simp⟩ (by simp)
    · rw [List.mem_singleton.mp ht]; exact hdeg _ ⟨by simp, by simp⟩ (by simp)
  · intro t ht
    rcases List.mem_cons.mp ht with rfl | ht
    · exact hdeg _ ⟨by simp, by simp⟩ (by simp)
    · rw [List.mem_singleton.mp ht]; exact hdeg _ ⟨by simp, by simp⟩ (by simp)

end Flt
end Verif
