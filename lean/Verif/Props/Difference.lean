import Verif.Props.Commute
import Verif.Props.F64Special
import Verif.Props.PolyError
import Verif.Props.Elts

/-!
# Property C203: a difference is zero exactly when the operands are equal

For floats too, where sums are rounded, and `q - p` is `-(p - q)` there. Over rationals a difference can
overflow, even the difference of a number and itself.
-/

set_option linter.unusedSectionVars false

namespace Verif
open Res

namespace Flt
open Fmt
variable [Fmt]

theorem eq_zero_iff {x : Flt} : eq x zero = true ↔ ∃ s, x = fin s 0 := by
  refine ⟨fun h => value_eq_zero.mp (eq_zero_value h), ?_⟩
  rintro ⟨s, rfl⟩
  cases s <;> simp [eq, partialCmp, zero, units]

theorem neg_twice (x : Flt) : neg (neg x) = x := (C172_sign x x).2.2.2.1

theorem eq_zero_neg (x : Flt) : eq (neg x) zero = eq x zero := by
  rw [Bool.eq_iff_iff, eq_zero_iff, eq_zero_iff]
  cases x with
  | nan => simp [neg]
  | inf s => simp [neg]
  | fin s n =>
    constructor
    · rintro ⟨t, h⟩
      simp only [neg, fin.injEq] at h
      exact ⟨s, by rw [h.2]⟩
    · rintro ⟨t, h⟩
      cases h
      exact ⟨!s, rfl⟩

/-- **C203** The difference of two floats, one of them not zero, is zero exactly when they are equal and
finite: a difference does not underflow. -/
theorem C203_float {x y : Flt} (hx : eq x zero = false) : eq (sub x y) zero = true ↔ x = y ∧ x.value ≠ none := by
  constructor
  · intro h
    have hv := eq_zero_value h
    have hfin : ∃ a b : ℚ, x.value = some a ∧ y.value = some b := by
      cases x with
      | nan => cases hv
      | inf s =>
        cases y with
        | nan => cases hv
        | inf t =>
          exfalso
          revert hv
          unfold sub neg add
          cases s <;> cases t <;> simp [value]
        | fin t n => cases hv
      | fin s n =>
        cases y with
        | nan => cases hv
        | inf t => cases hv
        | fin t m => exact ⟨_, _, rfl, rfl⟩
    obtain ⟨a, b, ha, hb⟩ := hfin
    have herr := C129_sub ha hb hv
    have hab : a = b := by
      rw [zero_sub, abs_neg] at herr
      have hp : (1 : ℚ) / 2 ^ prec ≤ 1 / 2 := by
        apply one_div_le_one_div_of_le two_pos
        calc (2 : ℚ) = 2 ^ 1 := (pow_one _).symm
          _ ≤ 2 ^ prec := pow_le_pow_right₀ one_le_two (by unfold prec; omega)
      have h0 := abs_nonneg (a - b)
      have : |a - b| ≤ 1 / 2 * |a - b| := herr.trans (mul_le_mul_of_nonneg_right hp h0)
      have : |a - b| = 0 := by linarith
      exact sub_eq_zero.mp (abs_eq_zero.mp this)
    subst hab
    refine ⟨?_, by rw [ha]; simp⟩
    cases x with
    | nan => cases ha
    | inf s => cases ha
    | fin s n =>
      cases y with
      | nan => cases hb
      | inf t => cases hb
      | fin t m =>
        have hn : n ≠ 0 := by
          rintro rfl
          rw [eq_zero_iff.mpr ⟨s, rfl⟩] at hx
          cases hx
        rw [← hb] at ha
        simp only [value, Option.some.injEq] at ha
        rw [div_left_inj' unit_posQ.ne'] at ha
        have h1 : units s n = units t m := by exact_mod_cast ha
        unfold units at h1
        cases s <;> cases t <;> simp at h1 ⊢ <;> omega
  · rintro ⟨rfl, h⟩
    rw [(C172_zero x x).1 h]
    exact eq_zero_iff.mpr ⟨false, rfl⟩

/-- **C203** `y - x` is `-(x - y)`, except for the sign of a zero. -/
theorem C203_float_swap (x y : Flt) : eq (sub y x) zero = eq (sub x y) zero ∧
    (eq (sub x y) zero = false → sub y x = neg (sub x y)) := by
  have key : ∀ x y : Flt, eq (sub x y) zero = false → sub y x = neg (sub x y) := by
    intro x y h
    cases x with
    | nan => cases y <;> rfl
    | inf s =>
      cases y with
      | nan => rfl
      | inf t => cases s <;> cases t <;> rfl
      | fin t m => rfl
    | fin s n =>
      cases y with
      | nan => rfl
      | inf t => simp [sub, neg, add]
      | fin t m =>
        have e : units t m + units (!s) n = -(units s n + units (!t) m) := by
          cases s <;> cases t <;> simp [units]
        change ofUnits _ _ = neg (ofUnits _ _)
        change eq (ofUnits _ _) zero = false at h
        rw [e]
        unfold ofUnits at h ⊢
        by_cases h0 : units s n + units (!t) m = 0
        · rw [if_pos h0, eq_zero_iff.mpr ⟨_, rfl⟩] at h
          cases h
        · rw [if_neg (by omega), if_neg h0, Int.natAbs_neg]
          have hd : decide (-(units s n + units (!t) m) < 0) = !decide (units s n + units (!t) m < 0) := by
            by_cases hlt : units s n + units (!t) m < 0
            · rw [decide_eq_false (by omega), decide_eq_true hlt]; rfl
            · rw [decide_eq_true (by omega), decide_eq_false hlt]; rfl
          rw [hd]
          unfold round
          dsimp only
          split <;> rfl
  refine ⟨?_, key x y⟩
  by_cases h : eq (sub x y) zero = true
  · rw [h]
    by_contra h'
    have h'' := Bool.eq_false_iff.mpr h'
    rw [key y x h'', eq_zero_neg, h''] at h
    cases h
  · have h' := Bool.eq_false_iff.mpr h
    rw [key x y h', eq_zero_neg]

variable (b : Build) (powi : Flt → Int → Flt)

/-- The polynomial with the signs of the coefficients changed. -/
def negate (p : Poly Flt) : Poly Flt := p.map fun t => ⟨neg t.coef, t.mdeg⟩

theorem neg_run (p : Poly Flt) : letI := field b powi
    Poly.neg p = .ok (negate p) := by
  let _ := field b powi
  unfold Poly.neg negate
  induction p with
  | nil => rfl
  | cons t p ih =>
    rw [List.mapM_cons, ih]
    rfl

theorem mem_negate {p : Poly Flt} {t : Term Flt} : t ∈ negate p ↔ (⟨neg t.coef, t.mdeg⟩ : Term Flt) ∈ p := by
  unfold negate
  rw [List.mem_map]
  constructor
  · rintro ⟨u, hu, rfl⟩
    rw [neg_twice]
    exact hu
  · intro h
    exact ⟨_, h, by rw [neg_twice]⟩

theorem negate_mdegs (p : Poly Flt) : (negate p).map (·.mdeg) = p.map (·.mdeg) := by
  unfold negate
  rw [List.map_map]
  rfl

theorem negate_canonical {p : Poly Flt} : letI := field b powi
    p.Canonical → (negate p).Canonical := by
  let _ := field b powi
  intro hp
  refine ⟨fun t ht => ?_, by rw [negate_mdegs]; exact hp.nodup⟩
  have := hp.ne _ (mem_negate.mp ht)
  change eq t.coef zero = false
  change eq (neg t.coef) zero = false at this
  rwa [eq_zero_neg] at this

theorem add_run {p q : Poly Flt} : letI := field b powi
    p.Canonical → q.Canonical → ∃ r, Poly.add p q = .ok r := by
  let _ := field b powi
  intro hp hq
  have : ∀ p : Poly Flt, ∃ cs, p.mapM (mergeTerm q) = .ok cs := by
    intro p
    induction p with
    | nil => exact ⟨_, rfl⟩
    | cons t p ih =>
      obtain ⟨cs, hcs⟩ := ih
      rw [List.mapM_cons, hcs]
      unfold mergeTerm
      split <;> exact ⟨_, rfl⟩
  obtain ⟨cs, hcs⟩ := this p
  exact ⟨_, (C123_add p q _ hp.nodup hq).mpr ⟨cs, hcs, rfl⟩⟩

/-- The terms of a difference. -/
theorem mem_sub {p q r : Poly Flt} : letI := field b powi
    p.Canonical → q.Canonical → Poly.sub p q = .ok r → ∀ t, t ∈ r ↔
      (t ∈ p ∧ t.mdeg ∉ q.map (·.mdeg)) ∨ ((⟨neg t.coef, t.mdeg⟩ : Term Flt) ∈ q ∧ t.mdeg ∉ p.map (·.mdeg)) ∨
      ∃ s ∈ p, ∃ u ∈ q, s.mdeg = t.mdeg ∧ u.mdeg = t.mdeg ∧ t.coef = sub s.coef u.coef ∧
        eq t.coef zero = false := by
  let _ := field b powi
  have := commutes b powi
  intro hp hq h t
  unfold Poly.sub at h
  rw [neg_run, bind_ok] at h
  rw [mem_add hp (negate_canonical b powi hq) h, negate_mdegs, mem_negate]
  refine or_congr_right (or_congr_right ?_)
  constructor
  · rintro ⟨s, hs, u, hu, h1, h2, h3, h4⟩
    refine ⟨s, hs, _, mem_negate.mp hu, h1, h2, ?_, h4⟩
    unfold sub
    dsimp only
    rw [neg_twice]
    exact (Res.ok.inj h3).symm
  · rintro ⟨s, hs, u, hu, h1, h2, h3, h4⟩
    exact ⟨s, hs, ⟨neg u.coef, u.mdeg⟩, mem_negate.mpr (by rw [neg_twice]; exact hu), h1, h2,
      congrArg Res.ok h3.symm, h4⟩

/-- **C203** The difference of two polynomials over floats always returns, and is zero exactly when both have
the same terms, in any order, with finite coefficients. -/
theorem C203_zero (p q : Poly Flt) : letI := field b powi
    p.Canonical → q.Canonical → ∃ r, Poly.sub p q = .ok r ∧
      (r.isZero = true ↔ p.Perm q ∧ ∀ t ∈ p, t.coef.value ≠ none) := by
  let _ := field b powi
  intro hp hq
  obtain ⟨r, hr⟩ := add_run b powi hp (negate_canonical b powi hq)
  have hsub : Poly.sub p q = .ok r := by
    unfold Poly.sub
    rw [neg_run, bind_ok, hr]
  refine ⟨r, hsub, ?_⟩
  have hmem := mem_sub b powi hp hq hsub
  have hz : r.isZero = true ↔ ∀ t, t ∉ r := by
    unfold Poly.isZero
    rw [List.isEmpty_iff, List.eq_nil_iff_forall_not_mem]
  rw [hz]
  constructor
  · intro h
    -- a term of one is a term of the other
    have h1 : ∀ s ∈ p, s ∈ q ∧ s.coef.value ≠ none := by
      intro s hs
      have hm : s.mdeg ∈ q.map (·.mdeg) := by
        by_contra hm
        exact h s ((hmem s).mpr (.inl ⟨hs, hm⟩))
      obtain ⟨u, hu, hus⟩ := List.mem_map.mp hm
      have hzero : eq (sub s.coef u.coef) zero = true := by
        by_contra hne
        exact h ⟨sub s.coef u.coef, s.mdeg⟩ ((hmem _).mpr (.inr (.inr ⟨s, hs, u, hu, rfl, hus, rfl,
          Bool.eq_false_iff.mpr hne⟩)))
      have := (C203_float (hp.ne s hs)).mp hzero
      refine ⟨?_, this.2⟩
      have hsu : s = u := by
        cases s; cases u
        simp only [Term.mk.injEq] at *
        exact ⟨this.1, hus.symm⟩
      rw [hsu]
      exact hu
    have h2 : ∀ u ∈ q, u ∈ p := by
      intro u hu
      have hm : u.mdeg ∈ p.map (·.mdeg) := by
        by_contra hm
        exact h ⟨neg u.coef, u.mdeg⟩ ((hmem _).mpr (.inr (.inl ⟨by rw [neg_twice]; exact hu, hm⟩)))
      obtain ⟨s, hs, hsu⟩ := List.mem_map.mp hm
      have := List.inj_on_of_nodup_map hq.nodup (h1 s hs).1 hu hsu
      rw [← this]
      exact hs
    exact ⟨(List.perm_ext_iff_of_nodup hp.nodup.of_map hq.nodup.of_map).mpr fun t =>
      ⟨fun ht => (h1 t ht).1, h2 t⟩, fun t ht => (h1 t ht).2⟩
  · rintro ⟨hperm, hfin⟩ t ht
    rcases (hmem t).mp ht with ⟨h1, h2⟩ | ⟨h1, h2⟩ | ⟨s, hs, u, hu, h1, h2, h3, h4⟩
    · exact h2 (List.mem_map_of_mem (hperm.mem_iff.mp h1))
    · exact h2 (List.mem_map.mpr ⟨_, hperm.mem_iff.mpr h1, rfl⟩)
    · have : s = u := List.inj_on_of_nodup_map hq.nodup (hperm.mem_iff.mp hs) hu (h1.trans h2.symm)
      subst this
      rw [h3, (C203_float (hp.ne s hs)).mpr ⟨rfl, hfin s hs⟩] at h4
      cases h4

/-- **C203** `q - p` has the terms of `-(p - q)`, perhaps in another order. -/
theorem C203_swap (p q : Poly Flt) : letI := field b powi
    p.Canonical → q.Canonical → ∃ r r' n, Poly.sub p q = .ok r ∧ Poly.sub q p = .ok r' ∧ Poly.neg r = .ok n ∧
      n.Perm r' := by
  let _ := field b powi
  intro hp hq
  obtain ⟨r, hr, -⟩ := C203_zero b powi p q hp hq
  obtain ⟨r', hr', -⟩ := C203_zero b powi q p hq hp
  refine ⟨r, r', _, hr, hr', neg_run b powi r, ?_⟩
  have n1 := (negate_canonical b powi (C94_sub_partial p q r hp hr).1).nodup.of_map
  have n2 := (C94_sub_partial q p r' hq hr').1.nodup.of_map
  have hswap : ∀ {x y z : Flt}, eq z zero = false → (neg z = sub x y ↔ z = sub y x) := by
    intro x y z hz
    constructor
    · intro h
      have : eq (sub x y) zero = false := by rw [← h, eq_zero_neg]; exact hz
      rw [(C203_float_swap x y).2 this, ← h, neg_twice]
    · rintro rfl
      have := (C203_float_swap y x).2 hz
      rw [this]
  refine (List.perm_ext_iff_of_nodup n1 n2).mpr fun t => ?_
  rw [mem_negate, mem_sub b powi hp hq hr, mem_sub b powi hq hp hr']
  dsimp only
  rw [neg_twice, eq_zero_neg]
  constructor
  · rintro (h | h | ⟨s, hs, u, hu, h1, h2, h3, h4⟩)
    · exact .inr (.inl h)
    · exact .inl h
    · exact .inr (.inr ⟨u, hu, s, hs, h2, h1, (hswap h4).mp h3, h4⟩)
  · rintro (h | h | ⟨s, hs, u, hu, h1, h2, h3, h4⟩)
    · exact .inr (.inl h)
    · exact .inl h
    · exact .inr (.inr ⟨u, hu, s, hs, h2, h1, (hswap h4).mpr h3, h4⟩)

end Flt

/-- **C203** Over rationals a difference can overflow, even `x - x` and `p - p`, in builds with overflow checks;
without them it is zero. -/
theorem C203_overflow : letI x : Rational := ⟨3037000501, 3037000500⟩
    letI p : Poly Rational := [⟨x, [1]⟩]
    Rational.sub .debug x x = .panic .overflowI64 ∧
    (letI := Rational.field .debug; Poly.sub p p = .panic .overflowI64) ∧
    (letI := Rational.field .release; Poly.sub p p = .ok []) := by
  refine ⟨?_, ?_, ?_⟩ <;> decide +kernel

namespace Flt
variable [Fmt]

/-- Differences of polynomials over floats: equal ones in different order, and with a coefficient that is infinite. -/
example : letI powi : Flt → Int → Flt := fun _ _ => nan
    letI := field .debug powi
    letI p : Poly Flt := [⟨ofInt 3, [1]⟩, ⟨div one (ofInt 3), [0, 2]⟩]
    letI q : Poly Flt := [⟨div one (ofInt 3), [0, 2]⟩, ⟨ofInt 3, [1]⟩]
    letI i : Poly Flt := [⟨inf false, [1]⟩]
    Poly.sub p q = .ok [] ∧ Poly.sub i i = .ok [⟨nan, [1]⟩] ∧
    Poly.sub p i = .ok [⟨inf true, [1]⟩, ⟨div one (ofInt 3), [0, 2]⟩] ∧
    Poly.sub i q = .ok [⟨inf false, [1]⟩, ⟨neg (div one (ofInt 3)), [0, 2]⟩] := by
  fmt_decide

end Flt
end Verif
