import Verif.Props.F64Error
import Verif.Props.TermOrder

/-!
# Rounding errors of polynomial arithmetic over `f32` and `f64` (C132)
-/

namespace Verif
open Res
namespace Flt
open Fmt
variable [Fmt]

/-- The coefficient of a polynomial at a multidegree, zero if there is no such term. -/
def coefAt (p : Poly Flt) (m : MDeg) : Flt :=
  ((p.find? fun t => t.mdeg = m).map (·.coef)).getD zero

theorem eq_zero_value {x : Flt} (h : eq x zero = true) : x.value = some 0 := by
  cases x with
  | nan => simp [eq, partialCmp] at h
  | inf s => cases s <;> simp [eq, partialCmp, zero] at h
  | fin s n =>
    simp only [eq, partialCmp, zero, beq_iff_eq, Option.some.injEq] at h
    simp only [value, Option.some.injEq]
    have h1 : units s n = 0 := by simpa [units] using compare_eq_iff_eq.mp h
    simp [h1]

theorem coefAt_nil (m : MDeg) : coefAt [] m = zero := rfl

theorem coefAt_cons_eq (t : Term Flt) (p : Poly Flt) : coefAt (t :: p) t.mdeg = t.coef := by
  simp [coefAt]

theorem coefAt_cons_ne {t : Term Flt} {m : MDeg} (h : t.mdeg ≠ m) (p : Poly Flt) :
    coefAt (t :: p) m = coefAt p m := by
  simp [coefAt, h]

theorem coefAt_not_mem {p : Poly Flt} {m : MDeg} (h : ∀ t ∈ p, t.mdeg ≠ m) : coefAt p m = zero := by
  unfold coefAt
  rw [List.find?_eq_none.mpr (by simpa using h)]
  rfl

theorem coefAt_append_ne {p : Poly Flt} {m : MDeg} (h : ∀ t ∈ p, t.mdeg ≠ m) (q : Poly Flt) :
    coefAt (p ++ q) m = coefAt q m := by
  induction p with
  | nil => rfl
  | cons t p ih =>
    rw [List.cons_append, coefAt_cons_ne (h t (by simp)), ih fun u hu => h u (by simp [hu])]

theorem coefAt_append_congr (p : Poly Flt) {q q' : Poly Flt} {m : MDeg}
    (h : coefAt q m = coefAt q' m) : coefAt (p ++ q) m = coefAt (p ++ q') m := by
  induction p with
  | nil => exact h
  | cons t p ih =>
    by_cases ht : t.mdeg = m
    · subst ht; rw [List.cons_append, List.cons_append, coefAt_cons_eq, coefAt_cons_eq]
    · rw [List.cons_append, List.cons_append, coefAt_cons_ne ht, coefAt_cons_ne ht, ih]

theorem coefAt_mem {p : Poly Flt} (hp : (p.map (·.mdeg)).Nodup) {t : Term Flt} (ht : t ∈ p) :
    coefAt p t.mdeg = t.coef := by
  induction p with
  | nil => simp at ht
  | cons u p ih =>
    rw [List.map_cons, List.nodup_cons] at hp
    rcases List.mem_cons.mp ht with rfl | ht
    · exact coefAt_cons_eq _ _
    · rw [coefAt_cons_ne (fun e => hp.1 (e ▸ List.mem_map_of_mem ht)), ih hp.2 ht]

variable (b : Build) (powi : Flt → Int → Flt)

/-- Adding a term adds to one coefficient and leaves the others. -/
theorem addTerm_coefAt {p : Poly Flt} (u : Term Flt) (hp : (p.map (·.mdeg)).Nodup) :
    letI := field b powi
    ∃ r, Poly.addTerm p u = .ok r ∧ (r.map (·.mdeg)).Nodup ∧
      (∀ m, m ≠ u.mdeg → coefAt r m = coefAt p m) ∧
      SumStep (coefAt p u.mdeg) u.coef (coefAt r u.mdeg) := by
  let _ := field b powi
  by_cases hu : u.isZero = true
  · have hz : u.coef.value = some 0 := eq_zero_value hu
    refine ⟨p, ?_, hp, fun _ _ => rfl, .inr (.inr ⟨hz, rfl⟩)⟩
    unfold Poly.addTerm
    rcases p with _ | ⟨t, p⟩
    · change Res.ok (Poly.ofTerm u) = _
      unfold Poly.ofTerm; rw [if_pos hu]; rfl
    · rw [if_neg (by simp [Poly.isZero]), if_pos hu]; rfl
  · have hu : u.isZero = false := by simpa using hu
    by_cases hm : ∀ t ∈ p, t.mdeg ≠ u.mdeg
    · refine ⟨p ++ [u], (addTerm_ok_iff hu).mpr (.inl ⟨hm, rfl⟩), ?_, fun m hm' => ?_, ?_⟩
      · rw [List.map_append, List.nodup_append]
        refine ⟨hp, by simp, fun a ha c hc => ?_⟩
        obtain ⟨t, ht, rfl⟩ := List.mem_map.mp ha
        rw [List.map_singleton, List.mem_singleton] at hc
        rw [hc]; exact hm t ht
      · have := coefAt_append_congr p (m := m) (q := [u]) (q' := [])
          (by rw [coefAt_cons_ne hm'.symm])
        rwa [List.append_nil] at this
      · rw [coefAt_append_ne hm, coefAt_cons_eq, coefAt_not_mem hm]
        exact .inr (.inl ⟨value_zero, rfl⟩)
    · push Not at hm
      obtain ⟨t, ht, he⟩ := hm
      obtain ⟨pre, suf, rfl⟩ := List.append_of_mem ht
      rw [List.map_append, List.map_cons, List.nodup_append] at hp
      obtain ⟨hp1, hp2, hp3⟩ := hp
      rw [List.nodup_cons] at hp2
      have hpre : ∀ x ∈ pre, x.mdeg ≠ u.mdeg := fun x hx e =>
        hp3 _ (List.mem_map_of_mem hx) _ (by simp) (e.trans he.symm)
      have hsuf : ∀ x ∈ suf, x.mdeg ≠ u.mdeg := fun x hx e =>
        hp2.1 (by rw [he, ← e]; exact List.mem_map_of_mem hx)
      refine ⟨_, (addTerm_ok_iff hu).mpr (.inr ⟨pre, t, suf, add t.coef u.coef, rfl, hpre, he, rfl,
        rfl⟩), ?_, fun m hm' => ?_, ?_⟩
      · split
        · simp only [Option.toList_none, List.append_nil, List.map_append]
          rw [List.nodup_append]
          exact ⟨hp1, hp2.2, fun a ha c hc => hp3 a ha c (by simp [hc])⟩
        · simp only [Option.toList_some, List.append_assoc, List.singleton_append, List.map_append,
            List.map_cons]
          rw [List.nodup_append]
          exact ⟨hp1, List.nodup_cons.mpr hp2, hp3⟩
      · rw [List.append_assoc]
        refine coefAt_append_congr pre ?_
        rw [coefAt_cons_ne (by rw [he]; exact hm'.symm)]
        split
        · rfl
        · rw [Option.toList_some, List.singleton_append,
            coefAt_cons_ne (by change t.mdeg ≠ m; rw [he]; exact hm'.symm)]
      · rw [List.append_assoc, coefAt_append_ne hpre, coefAt_append_ne hpre, ← he, coefAt_cons_eq]
        split
        · rename_i hz
          rw [Option.toList_none, List.nil_append, coefAt_not_mem (by rw [he]; exact hsuf)]
          exact .inl (by rw [value_zero]; exact (eq_zero_value hz).symm)
        · rw [Option.toList_some, List.singleton_append]
          exact .inl (congrArg value (coefAt_cons_eq ⟨add t.coef u.coef, t.mdeg⟩ suf))

/-- The coefficients of a sum. -/
theorem add_coefAt {p : Poly Flt} (q : Poly Flt) (hp : (p.map (·.mdeg)).Nodup)
    (hq : (q.map (·.mdeg)).Nodup) :
    letI := field b powi
    ∃ r, Poly.add p q = .ok r ∧ (r.map (·.mdeg)).Nodup ∧
      (∀ m, (∀ t ∈ q, t.mdeg ≠ m) → coefAt r m = coefAt p m) ∧
      ∀ t ∈ q, SumStep (coefAt p t.mdeg) t.coef (coefAt r t.mdeg) := by
  let _ := field b powi
  induction q generalizing p with
  | nil => exact ⟨p, rfl, hp, fun _ _ => rfl, by simp⟩
  | cons u q ih =>
    rw [List.map_cons, List.nodup_cons] at hq
    obtain ⟨p', h1, h2, h3, h4⟩ := addTerm_coefAt b powi u hp
    obtain ⟨r, k1, k2, k3, k4⟩ := ih h2 hq.2
    have hn : ∀ t ∈ q, t.mdeg ≠ u.mdeg := fun t ht e => hq.1 (e ▸ List.mem_map_of_mem ht)
    refine ⟨r, ?_, k2, fun m hm => ?_, fun t ht => ?_⟩
    · unfold Poly.add
      rw [List.foldlM_cons, h1]
      exact k1
    · rw [k3 m fun t ht => hm t (by simp [ht]), h3 m (hm u (by simp)).symm]
    · rcases List.mem_cons.mp ht with rfl | ht
      · rw [k3 _ hn]; exact h4
      · rw [← h3 _ (hn t ht)]; exact k4 t ht

/-- C132. The sum of polynomials with distinct multidegrees: it is returned, and each coefficient that is
finite is the sum of the coefficients up to a relative error of `2^-prec`; it is finite if the coefficients
are and their sum is below `2^maxExp - 2^(maxExp - sig - 2)` in absolute value. -/
theorem C132_add (p q : Poly Flt) (hp : (p.map (·.mdeg)).Nodup) (hq : (q.map (·.mdeg)).Nodup) :
    letI := field b powi
    ∃ r, Poly.add p q = .ok r ∧ (r.map (·.mdeg)).Nodup ∧ ∀ m : MDeg,
      (∀ d, (coefAt r m).value = some d → ∃ x y, (coefAt p m).value = some x ∧
        (coefAt q m).value = some y ∧ |d - (x + y)| ≤ 1 / 2 ^ prec * |x + y|) ∧
      ∀ x y, (coefAt p m).value = some x → (coefAt q m).value = some y →
        |x + y| < 2 ^ maxExp - 2 ^ (maxExp - sig - 2) → ∃ d, (coefAt r m).value = some d := by
  let _ := field b powi
  obtain ⟨r, h1, h2, h3, h4⟩ := add_coefAt b powi q hp hq
  refine ⟨r, h1, h2, fun m => ?_⟩
  rw [← huge_eq]
  have hs : SumStep (coefAt p m) (coefAt q m) (coefAt r m) := by
    by_cases hm : ∀ t ∈ q, t.mdeg ≠ m
    · rw [h3 m hm, coefAt_not_mem hm]
      exact .inr (.inr ⟨value_zero, rfl⟩)
    · push Not at hm
      obtain ⟨t, ht, rfl⟩ := hm
      rw [coefAt_mem hq ht]
      exact h4 t ht
  refine ⟨fun d hd => ?_, fun x y hx hy h => hs.finite_of hx hy h⟩
  obtain ⟨⟨x, hx⟩, y, hy⟩ := hs.finite hd
  exact ⟨x, y, hx, hy, hs.error hx hy hd⟩

theorem neg_coefAt {q q' : Poly Flt}
    (h : letI := field b powi; Poly.neg q = .ok q') :
    q'.map (·.mdeg) = q.map (·.mdeg) ∧ ∀ m, (coefAt q' m).value = (coefAt q m).value.map (- ·) := by
  let _ := field b powi
  replace h := (C123_neg q q').mp h
  induction h with
  | nil => exact ⟨rfl, fun m => by rw [coefAt_nil, value_zero]; simp⟩
  | @cons t u q q' htu _ ih =>
    obtain ⟨h1, h2⟩ := htu
    refine ⟨by rw [List.map_cons, List.map_cons, ih.1, h1], fun m => ?_⟩
    by_cases hm : t.mdeg = m
    · rw [← hm, coefAt_cons_eq, ← h1, coefAt_cons_eq]
      have : neg t.coef = u.coef := by injection h2
      rw [← this, value_neg]
    · rw [coefAt_cons_ne hm, coefAt_cons_ne (by rw [h1]; exact hm)]
      exact ih.2 m

/-- C132. The same for the difference. -/
theorem C132_sub (p q : Poly Flt) (hp : (p.map (·.mdeg)).Nodup) (hq : (q.map (·.mdeg)).Nodup) :
    letI := field b powi
    ∃ r, Poly.sub p q = .ok r ∧ (r.map (·.mdeg)).Nodup ∧ ∀ m : MDeg,
      (∀ d, (coefAt r m).value = some d → ∃ x y, (coefAt p m).value = some x ∧
        (coefAt q m).value = some y ∧ |d - (x - y)| ≤ 1 / 2 ^ prec * |x - y|) ∧
      ∀ x y, (coefAt p m).value = some x → (coefAt q m).value = some y →
        |x - y| < 2 ^ maxExp - 2 ^ (maxExp - sig - 2) → ∃ d, (coefAt r m).value = some d := by
  let _ := field b powi
  obtain ⟨q', hq'⟩ : ∃ q', Poly.neg q = .ok q' := by
    unfold Poly.neg
    induction q with
    | nil => exact ⟨_, rfl⟩
    | cons t q ih =>
      obtain ⟨q', h⟩ := ih (List.nodup_cons.mp hq).2
      refine ⟨⟨neg t.coef, t.mdeg⟩ :: q', ?_⟩
      rw [List.mapM_cons, bind_eq_ok]
      exact ⟨_, rfl, by rw [h]; rfl⟩
  obtain ⟨hm, hv⟩ := neg_coefAt b powi hq'
  obtain ⟨r, h1, h2, h3⟩ := C132_add b powi p q' hp (by rw [hm]; exact hq)
  refine ⟨r, bind_eq_ok.mpr ⟨q', hq', h1⟩, h2, fun m => ⟨fun d hd => ?_, fun x y hx hy h => ?_⟩⟩
  · obtain ⟨x, y, hx, hy, he⟩ := (h3 m).1 d hd
    rw [hv] at hy
    obtain ⟨z, hz, rfl⟩ := Option.map_eq_some_iff.mp hy
    exact ⟨x, z, hx, hz, by rw [sub_eq_add_neg x]; exact he⟩
  · exact (h3 m).2 x (-y) hx (by rw [hv, hy]; rfl) (by rw [← sub_eq_add_neg]; exact h)

/-- The pairs of coefficients of `q` and `p` whose terms have multidegrees with the sum `m`. -/
def pairsAt (p q : Poly Flt) (m : MDeg) : List (Flt × Flt) :=
  p.flatMap fun s => q.filterMap fun t =>
    if MDeg.add .debug t.mdeg s.mdeg = .ok m then some (t.coef, s.coef) else none

variable {n : ℕ}

/-- The coefficients of the product with a term. -/
theorem mulTerm_coefAt {q r : Poly Flt} {s : Term Flt} (hq : letI := field .debug powi; q.Canonical)
    (hd : letI := field .debug powi; q.Degs n) (hs : s.mdeg.Clean)
    (hz : letI := field .debug powi; s.isZero = false)
    (h : letI := field .debug powi; Poly.mulTerm q s = .ok r) :
    (r.map (·.mdeg)).Nodup ∧ ∀ m, ((∀ u ∈ r, u.mdeg ≠ m) ∧ pairsAt [s] q m = []) ∨
      ∃ t ∈ q, ∃ u ∈ r, u.mdeg = m ∧ pairsAt [s] q m = [(t.coef, s.coef)] ∧
        u.coef = mul t.coef s.coef := by
  let _ := field .debug powi
  replace h := (C123_mul_term q r s hq.ne hz).mp h
  have hnd := hq.nodup
  clear hq
  induction h with
  | nil => exact ⟨by simp, fun m => .inl ⟨by simp, rfl⟩⟩
  | @cons t u q r htu hqr ih =>
    rw [List.map_cons, List.nodup_cons] at hnd
    obtain ⟨ih1, ih2⟩ := ih (fun x hx => hd x (by simp [hx])) hnd.2
    obtain ⟨h1, h2⟩ := htu
    have h1 : mul t.coef s.coef = u.coef := by injection h1
    have h2 : MDeg.add .debug t.mdeg s.mdeg = .ok u.mdeg := h2
    have ht := hd t (by simp)
    have hcons : ∀ m, pairsAt [s] (t :: q) m =
        (if u.mdeg = m then [(t.coef, s.coef)] else []) ++ pairsAt [s] q m := by
      intro m
      simp only [pairsAt, List.flatMap_cons, List.flatMap_nil, List.append_nil, List.filterMap_cons, h2,
        Res.ok.injEq]
      split <;> rename_i hm <;> split at hm <;> simp_all
    have hnot : ∀ v ∈ r, v.mdeg ≠ u.mdeg := by
      intro v hv e
      obtain ⟨t', ht', -, hadd⟩ : ∃ t' ∈ q, RField.mul t'.coef s.coef = .ok v.coef ∧
          MDeg.add .debug t'.mdeg s.mdeg = .ok v.mdeg := by
        clear * - hqr hv
        induction hqr with
        | nil => simp at hv
        | cons h _ ih =>
          rcases List.mem_cons.mp hv with rfl | hv
          · exact ⟨_, by simp, h⟩
          · obtain ⟨t', h1, h2⟩ := ih hv
            exact ⟨t', by simp [h1], h2⟩
      have := (C16_add_laws t.mdeg t'.mdeg s.mdeg ht.1 (hd t' (by simp [ht'])).1 hs).2.2 u.mdeg h2
        (by rw [hadd, e])
      exact hnd.1 (this ▸ List.mem_map_of_mem ht')
    refine ⟨?_, fun m => ?_⟩
    · rw [List.map_cons, List.nodup_cons]
      refine ⟨fun hmem => ?_, ih1⟩
      obtain ⟨v, hv, e⟩ := List.mem_map.mp hmem
      exact hnot v hv e
    · rw [hcons m]
      by_cases hm : u.mdeg = m
      · rw [if_pos hm]
        refine .inr ⟨t, by simp, u, by simp, hm, ?_, h1.symm⟩
        rcases ih2 m with ⟨-, h⟩ | ⟨-, -, v, hv, e, -⟩
        · rw [h]; rfl
        · exact absurd (e.trans hm.symm) (hnot v hv)
      · rw [if_neg hm, List.nil_append]
        rcases ih2 m with ⟨h, h'⟩ | ⟨t', ht', v, hv, e, h⟩
        · refine .inl ⟨fun v hv => ?_, h'⟩
          rcases List.mem_cons.mp hv with rfl | hv
          · exact hm
          · exact h v hv
        · exact .inr ⟨t', by simp [ht'], v, by simp [hv], e, h⟩

/-- The coefficients of a product are sums of products. -/
theorem mul_coefAt {p q r : Poly Flt} (hp : letI := field .debug powi; p.Canonical)
    (hpd : letI := field .debug powi; p.Degs n)
    (hq : letI := field .debug powi; q.Canonical) (hqd : letI := field .debug powi; q.Degs n)
    (h : letI := field .debug powi; Poly.mul p q = .ok r) :
    (r.map (·.mdeg)).Nodup ∧ ∀ m, DotRun (pairsAt p q m) (coefAt r m) := by
  let _ := field .debug powi
  induction p using List.reverseRecOn generalizing r with
  | nil =>
    have := (C123_mul ([] : Poly Flt) q r).1.mp h
    subst this
    exact ⟨by simp, fun m => .nil value_zero⟩
  | append_singleton p s ih =>
    have hsz := hp.ne s (by simp)
    have hsd := (hpd s (by simp)).1
    by_cases hp0 : p = []
    · subst hp0
      rw [List.nil_append, (C123_mul ([] : Poly Flt) q r).2.1] at h
      obtain ⟨h1, h2⟩ := mulTerm_coefAt powi hq hqd hsd hsz h
      refine ⟨h1, fun m => ?_⟩
      rw [List.nil_append]
      rcases h2 m with ⟨h3, h4⟩ | ⟨t, -, u, hu, rfl, h4, h5⟩
      · rw [h4, coefAt_not_mem h3]; exact .nil value_zero
      · rw [h4, coefAt_mem h1 hu, h5]
        exact .snoc (l := []) (.nil value_zero) (.inr (.inl ⟨value_zero, rfl⟩))
    · obtain ⟨a, c, ha, hc, hr⟩ := ((C123_mul p q r).2.2 s hp0).mp h
      obtain ⟨ih1, ih2⟩ := ih ⟨fun t ht => hp.ne t (by simp [ht]), by
        have := hp.nodup
        rw [List.map_append, List.nodup_append] at this
        exact this.1⟩ (fun t ht => hpd t (by simp [ht])) ha
      obtain ⟨h1, h2⟩ := mulTerm_coefAt powi hq hqd hsd hsz hc
      obtain ⟨r', k1, k2, k3, k4⟩ := add_coefAt .debug powi c ih1 h1
      have : r' = r := by
        have := k1.symm.trans hr
        injection this
      subst this
      refine ⟨k2, fun m => ?_⟩
      have e : pairsAt (p ++ [s]) q m = pairsAt p q m ++ pairsAt [s] q m := by
        unfold pairsAt; rw [List.flatMap_append]
      rw [e]
      rcases h2 m with ⟨h3, h4⟩ | ⟨t, -, u, hu, rfl, h4, h5⟩
      · rw [h4, List.append_nil, k3 m h3]; exact ih2 m
      · rw [h4]
        refine .snoc (ih2 _) ?_
        rw [← h5]; exact k4 u hu

/-- C132. The product of polynomials without zero coefficients and with distinct multidegrees, if it is
returned: a coefficient that is finite comes from finite coefficients and differs from the exact sum of
the `k` products of coefficients by at most
`((1 + 2^-prec)^k - 1) * Σ |x y| + k (1 + 2^-prec)^k 2^-(unitExp + 1)`; it is finite if the coefficients are and
their products are not too large. -/
theorem C132_mul (p q r : Poly Flt) (hp : letI := field .debug powi; p.Canonical)
    (hpd : letI := field .debug powi; p.Degs n)
    (hq : letI := field .debug powi; q.Canonical) (hqd : letI := field .debug powi; q.Degs n)
    (h : letI := field .debug powi; Poly.mul p q = .ok r) (m : MDeg) :
    let l := p.flatMap fun s => q.filterMap fun t =>
      if MDeg.add .debug t.mdeg s.mdeg = .ok m then some (t.coef, s.coef) else none
    (∀ d, (coefAt r m).value = some d → (∀ x ∈ l, x.1.value ≠ none ∧ x.2.value ≠ none) ∧
      |d - (l.map fun x => x.1.val * x.2.val).sum| ≤
        ((1 + 1 / 2 ^ prec) ^ l.length - 1) * (l.map fun x => |x.1.val * x.2.val|).sum +
          l.length * (1 + 1 / 2 ^ prec) ^ l.length * tiny) ∧
    ((∀ x ∈ l, x.1.value ≠ none ∧ x.2.value ≠ none) →
      (1 + 1 / 2 ^ prec) ^ l.length * ((l.map fun x => |x.1.val * x.2.val|).sum + l.length * tiny) <
        2 ^ maxExp - 2 ^ (maxExp - sig - 2) → ∃ d, (coefAt r m).value = some d) := by
  have := (mul_coefAt powi hp hpd hq hqd h).2 m
  rw [← huge_eq]
  exact ⟨fun d hd => this.error hd, fun h1 h2 => this.finite h1 h2⟩

/-! ### An example -/

/-- `0.1 x + 1`. -/
def tenthX : Poly Flt := [⟨fin false tenthUnits, [1]⟩, ⟨one, []⟩]

example : letI := field .debug fun _ _ => nan
    tenthX.Canonical ∧ tenthX.Degs 1 := by
  let _ := field .debug fun _ _ => nan
  refine ⟨⟨?_, by fmt_decide⟩, ?_⟩
  · intro t ht
    simp only [tenthX, List.mem_cons, List.not_mem_nil, or_false] at ht
    rcases ht with rfl | rfl <;> fmt_decide
  · intro t ht
    simp only [tenthX, List.mem_cons, List.not_mem_nil, or_false] at ht
    rcases ht with rfl | rfl
    · exact ⟨by fmt_decide, (MDeg.inVars_fin (by fmt_decide)).mpr (by fmt_decide)⟩
    · exact ⟨by fmt_decide, (MDeg.inVars_fin (by fmt_decide)).mpr (by fmt_decide)⟩

/-- The square of `0.1 x + 1` is `0.010000000000000002 x^2 + 0.2 x + 1`; its leading coefficient is not the
exact one. -/
example : letI := field .debug fun _ _ => nan
    ∃ r k, Poly.mul tenthX tenthX = .ok r ∧ coefAt r [2] = fin false k ∧
      k * unit ≠ tenthUnits * tenthUnits ∧ coefAt r [1] = fin false (2 * tenthUnits) := by
  let _ := field .debug fun _ _ => nan
  refine ⟨[⟨fin false (roundNat (tenthUnits * tenthUnits) unit), [2]⟩, ⟨fin false (2 * tenthUnits), [1]⟩,
    ⟨one, []⟩], roundNat (tenthUnits * tenthUnits) unit, ?_, rfl, ?_, rfl⟩ <;> fmt_decide

end Flt
end Verif
