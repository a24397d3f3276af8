import Verif.Props.KernelError
import Verif.Props.ConeAny
import Verif.Props.F64Error
import Verif.Props.F64Poly
import Verif.Proofs.F64Exact

/-!
# Property C224: facets of `Cone::new` over `f32` and `f64`

The recorded normals support the cone up to the rounding errors of the products, and are orthogonal to the
generators of the facet up to those of the elimination.
-/

namespace Verif
open Res LinAlg
namespace Flt
open Fmt
variable [Fmt]

theorem val_neg (x : Flt) : (neg x).val = -x.val := by
  rw [val, val, value_neg]
  cases x.value <;> simp

/-- Negation of all entries, as `Cone::new` computes it. -/
theorem scale_minus_one (b : Build) (powi : Flt → Int → Flt) {v N : Mat Flt} {n m : ℕ} {x : ℕ → ℕ → Flt}
    (hx : ∀ y ∈ v.entries, y.Valid) :
    letI := field b powi
    v.Has n m x → v.scale (sub zero one) = .ok N → N.Has n m fun i j => neg (x i j) := by
  let _ := field b powi
  intro h hs
  have hm : ∀ l : List Flt, (∀ y ∈ l, y.Valid) →
      (l.mapM fun y => RField.mul y (sub zero one)) = Res.ok (l.map neg) := by
    intro l hl
    induction l with
    | nil => rfl
    | cons a l ih =>
      rw [List.mapM_cons, ih fun y hy => hl y (List.mem_cons_of_mem _ hy)]
      exact congrArg (fun z => Res.ok (z :: l.map neg)) (mul_minus_one a (hl a List.mem_cons_self))
  rw [Mat.scale, hm _ hx] at hs
  have hN := (Res.ok.inj hs).symm
  subst hN
  exact ⟨h.rows, h.cols, by simpa using h.len, h.rows_lt, h.cols_lt, h.len_lt, fun i j hi hj => by
    simp [h.entry i j hi hj]⟩

/-- C224. Every recorded normal is, up to the rounding errors of one product, on the nonnegative side of every generator:
the computed product is not a NaN, and if it is finite, the exact product is at least the negative error bound. -/
theorem C224_above (b : Build) (powi : Flt → Int → Flt) (gs : List (Mat Flt)) :
    letI := field b powi
    letI := fieldOrd
    ∀ c, Cone.new gs = .ok c → ∀ f ∈ c.facets, ∀ g ∈ gs, ∃ s, g.dot f.normal = .ok s ∧
      (s = inf false ∨
        let l := g.entries.zip f.normal.entries
        (∀ p ∈ l, p.1.value ≠ none ∧ p.2.value ≠ none) ∧
        -(((1 + 1 / 2 ^ prec) ^ l.length - 1) * (l.map fun p => |p.1.val * p.2.val|).sum +
          l.length * (1 + 1 / 2 ^ prec) ^ l.length * tiny) ≤ (l.map fun p => p.1.val * p.2.val).sum) := by
  let _ := field b powi
  let _ := fieldOrd
  intro c hc f hf g hg
  obtain ⟨-, -, -, h⟩ := (C126_facets gs c hc f).mp hf
  obtain ⟨s, o, hs, ho, hne⟩ := h g hg
  refine ⟨s, hs, ?_⟩
  have ho' : partialCmp s zero = some o := Res.ok.inj ho
  obtain ⟨s', hs', herr⟩ := C130_dot b powi g f.normal
  rw [hs] at hs'
  cases hs'
  cases s with
  | nan => cases ho'
  | inf t =>
    cases t
    · exact .inl rfl
    · simp only [partialCmp, zero, if_true, Option.some.injEq] at ho'
      exact absurd ho'.symm hne
  | fin t k =>
    right
    obtain ⟨h1, h2⟩ := herr _ rfl
    refine ⟨h1, ?_⟩
    have h0 : (0 : ℚ) ≤ (units t k : ℚ) / unit := by
      refine div_nonneg ?_ unit_posQ.le
      by_contra hlt
      have : units t k < units false 0 := by
        have : (units t k : ℚ) < 0 := not_le.mp hlt
        simpa [units] using (by exact_mod_cast this : units t k < 0)
      rw [zero, partialCmp, compare_lt_iff_lt.mpr this] at ho'
      exact hne (Option.some.inj ho').symm
    have := (abs_le.mp h2).2
    linarith

/-- C224. The normal of a facet is orthogonal to the generators of the facet up to the rounding errors of the elimination
(C222), if the reduced form of their matrix is finite and exactly reduced. -/
theorem C224_orthogonal (b : Build) (powi : Flt → Int → Flt) (gs : List (Mat Flt)) {n m : ℕ}
    {A : ℕ → ℕ → Flt} (hA : ∀ i j, i < n → j < m → (A i j).Valid) (hnn : n * n < 18446744073709551616) :
    letI := field b powi
    letI := fieldOrd
    ∀ c, Cone.new gs = .ok c → ∀ f ∈ c.facets, ∀ M, Mat.fromRowVectors f.generators = .ok M → M.Has n m A →
      ∃ (form g : Form Flt) (d : LU Flt) (π : Equiv.Perm (Fin n)) (l B R : ℕ → ℕ → Flt) (V : ℕ → ℕ → ℚ),
      M.lu = .ok d ∧ M.rowEchelon = .ok form ∧ form.toRref = .ok g ∧
      d.l.Has n n l ∧ form.b.Has n m B ∧ g.b.Has n m R ∧
      (∀ i, V i i = 1) ∧ (∀ i t, t < i → V i t = 0) ∧
      ((∀ i j, i < n → j < m → (R i j).value ≠ none) → ExactlyReduced n m R →
        ∃ x : ℕ → Flt, f.normal.Has m 1 (fun j _ => x j) ∧ (∃ c < m, |(x c).val| = 1) ∧
          ∀ i : Fin n, (l i i).value ≠ none →
            |∑ j ∈ Finset.range m, (A (π i) j).val * (x j).val| ≤ kernelBound n m l B R V x i) := by
  let _ := field b powi
  let _ := fieldOrd
  intro c hc f hf M hM hMA
  obtain ⟨-, -, ⟨v, rest, g₀, gs', s, o, ⟨M', form, g, hM', hform, hg, -, hker⟩, -, -, -, hN, hN'⟩, -⟩ :=
    (C126_facets gs c hc f).mp hf
  rw [hM] at hM'
  cases hM'
  obtain ⟨d, π, l, B, R, V, hd, -, hl, hB, hR, hV, hV', key⟩ := C222_kernel b powi hA hnn hMA form g hform hg
  refine ⟨form, g, d, π, l, B, R, V, hd, hform, hg, hl, hB, hR, hV, hV', fun hfin hred => ?_⟩
  obtain ⟨vs, hvs, hall⟩ := key hfin hred
  rw [hker] at hvs
  cases hvs
  obtain ⟨x, hx, ⟨c', hc', hx1⟩, hb⟩ := hall v (by simp)
  by_cases ho : o = .lt
  · obtain ⟨t, ht, hs⟩ := hN' ho
    have ht' : t = sub zero one := (Res.ok.inj ht).symm
    subst ht'
    have hMo : M.Over Valid := hMA.over hA
    have hfo := over_rowEchelon (fun x _ hx => eq_false_of_eps x (Res.ok.inj hx)) (closed_valid b powi) hMo form hform
    have hgo := over_toRref (closed_valid b powi).toClosedRing hfo g hg
    have hvo := over_computeKernel (closed_valid b powi).toClosedRing hgo.2 _ hker v (by simp)
    refine ⟨fun j => neg (x j), scale_minus_one b powi hvo hx hs, ⟨c', hc', by rw [val_neg, hx1]; simp⟩, fun i hi => ?_⟩
    have := hb i hi
    simp only [kernelBound, val_neg, mul_neg, Finset.sum_neg_distrib, abs_neg] at this ⊢
    exact this
  · rw [hN ho]
    exact ⟨x, hx, ⟨c', hc', by rw [hx1, abs_one]⟩, hb⟩

/-- Three generators over `f32` and `f64`: `(3, 1, 2)` and `(0, 3, 1)`, the rows of `matKer`, span a facet, and its matrix
meets the hypotheses of `C224_orthogonal`, as shown with C222. -/
example (b : Build) : letI := field b fun _ _ => nan
    letI := fieldOrd
    ∃ c, Cone.new [⟨[fin false (3 * unit), one, fin false (2 * unit)], 3, 1⟩,
        ⟨[zero, fin false (3 * unit), one], 3, 1⟩, ⟨[fin true unit, zero, zero], 3, 1⟩] = .ok c ∧
      c.facets.length = 2 ∧ ∃ f ∈ c.facets, Mat.fromRowVectors f.generators = .ok matKer := by
  let _ := field b fun _ _ => nan
  let _ := fieldOrd
  have hc : (match Cone.new [⟨[fin false (3 * unit), one, fin false (2 * unit)], 3, 1⟩,
        ⟨[zero, fin false (3 * unit), one], 3, 1⟩, ⟨[fin true unit, zero, zero], 3, 1⟩] with
      | .ok c => decide (c.facets.length = 2) && c.facets.any fun f =>
          decide (Mat.fromRowVectors f.generators = .ok matKer)
      | _ => false) = true := by cases b <;> fmt_decide
  split at hc
  · next c h =>
    rw [Bool.and_eq_true] at hc
    obtain ⟨f, hf, hM⟩ := List.any_eq_true.mp hc.2
    exact ⟨c, h, of_decide_eq_true hc.1, f, hf, of_decide_eq_true hM⟩
  · cases hc

/-- C224. The rounding errors are not negligible: of the three facets of the cone with the generators `(1, 0, 0)`,
`(3, -1, 2)` and `(0, 7, 1)`, all found over `Rational`, the code finds only two over `f32` and `f64`. -/
theorem C224_lost (b : Build) :
    (letI := Rational.field .debug; letI := Rational.stability .debug; letI := Rational.fieldOrd .debug;
      (fun c => c.facets.map Face.generators) <$>
        Cone.new [ratMat 3 1 [1, 0, 0], ratMat 3 1 [3, -1, 2], ratMat 3 1 [0, 7, 1]] = .ok
        [[ratMat 3 1 [1, 0, 0], ratMat 3 1 [3, -1, 2]], [ratMat 3 1 [1, 0, 0], ratMat 3 1 [0, 7, 1]],
          [ratMat 3 1 [3, -1, 2], ratMat 3 1 [0, 7, 1]]]) ∧
    (letI := field b fun _ _ => nan; letI := fieldOrd;
      (fun c => c.facets.map Face.generators) <$>
        Cone.new [⟨[one, zero, zero], 3, 1⟩, ⟨[fin false (3 * unit), fin true unit, fin false (2 * unit)], 3, 1⟩,
          ⟨[zero, fin false (7 * unit), one], 3, 1⟩] = .ok
        [[⟨[one, zero, zero], 3, 1⟩, ⟨[fin false (3 * unit), fin true unit, fin false (2 * unit)], 3, 1⟩],
          [⟨[one, zero, zero], 3, 1⟩, ⟨[zero, fin false (7 * unit), one], 3, 1⟩]]) := by
  refine ⟨by decide +kernel, ?_⟩
  cases b <;> fmt_decide

end Flt
end Verif
