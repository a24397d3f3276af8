import Verif.Proofs.F64Exact
import Verif.Proofs.F64Int
import Verif.Proofs.Run
import Verif.Props.MDeg
import Verif.Props.Mat
import Verif.Props.Elts
import Verif.Props.Comp
import Verif.Props.Elim
import Verif.Props.Refine
import Mathlib.Tactic.FinCases
import Mathlib.LinearAlgebra.Matrix.Notation

/-!
# C108: a run over `f32` and `f64` in which nothing is rounded is exact

The runs on the left-hand sides are over `Flt.exact`: the operations of `f32` and `f64`, except that an
operation panics if its result is not the exact one (it was rounded, it overflowed, or it is not a
number), and `epsilon_equals` panics if it does not agree with equality.  So "the run over `Flt.exact`
returns `r`" says that the run over `f32` and `f64` performs no inexact operation, and returns `r`.

`letI := Flt.exactF64 powi` makes `Poly.Clean`, `Mat.Represents`, ... speak of the rational values of
the numbers; they hold only of finite numbers.
-/

namespace Verif
open Res LawfulRField LinAlg Computer MvPolynomial

namespace Flt
open Fmt
variable [Fmt]

variable (b : Build) (powi : Flt → Int → Flt)

theorem eps_ref : ∀ x y, Refines (exactEps.epsilonEquals x y)
    (Flt.epsilonEquality.epsilonEquals x y) := eps_refines

/-- C108 for the arithmetic of polynomials. -/
theorem C108_poly (p q : Poly Flt) (c : Flt) :
    letI X := exact powi
    letI := exactF64 powi
    Poly.Clean ℕ p → Poly.Clean ℕ q → wf c →
    (∀ r, @Poly.add _ X p q = .ok r → @Poly.add _ (field b powi) p q = .ok r ∧ Poly.Clean ℕ r ∧
      Poly.den ℕ r = Poly.den ℕ p + Poly.den ℕ q) ∧
    (∀ r, @Poly.sub _ X p q = .ok r → @Poly.sub _ (field b powi) p q = .ok r ∧ Poly.Clean ℕ r ∧
      Poly.den ℕ r = Poly.den ℕ p - Poly.den ℕ q) ∧
    (∀ r, @Poly.mul _ X p q = .ok r → @Poly.mul _ (field b powi) p q = .ok r ∧ Poly.Clean ℕ r ∧
      Poly.den ℕ r = Poly.den ℕ p * Poly.den ℕ q) ∧
    (∀ r, c.rat ≠ 0 → @Poly.divCoef _ X p c = .ok r → @Poly.divCoef _ (field b powi) p c = .ok r ∧
      Poly.Clean ℕ r ∧ Poly.den ℕ r = C (c.rat)⁻¹ * Poly.den ℕ p) ∧
    (∀ (x : List Flt) r, (∀ a ∈ x, wf a) → @Poly.eval _ X p x = .ok r → @Poly.eval _ (field b powi) p x = .ok r ∧
      r.value = some (MvPolynomial.eval (fun i => (x.getD i zero).rat) (Poly.den ℕ p))) := by
  let _ := exact powi
  let _ := exactF64 powi
  intro hp hq hc
  have h := ops_refine (powi := powi) b
  have hz := Term.zero_ok (F := Flt) (K := ℚ) (σ := ℕ)
  refine ⟨fun r hr => ⟨Poly.add_refines h _ _ _ hr, (C25_add p q _ _ hp hq hz hz).1.of_ok hr⟩,
    fun r hr => ⟨Poly.sub_refines h _ _ _ hr, (C26_sub p q _ _ hp hq hz hz).2.2.1.of_ok hr⟩,
    fun r hr => ⟨Poly.mul_refines h _ _ _ hr, (C27_mul p q _ _ c hp hq hz hz hc).1.of_ok hr⟩,
    fun r h0 hr => ⟨Poly.divCoef_refines h _ _ _ hr, (C28_div p c hp hc h0).of_ok hr⟩,
    fun x r hx hr => ⟨Poly.eval_refines h _ _ _ hr, ?_⟩⟩
  obtain ⟨-, h1, h2⟩ := (C31_eval p hp x hx).of_ok hr
  rw [value_some h1]
  exact congrArg some h2

omit [Fmt] in
theorem order_refines (k : OrdKind) : OrdRefines (k.order .debug) (k.order b) := by
  cases k
  · exact OrdRefines.refl _
  · exact OrdRefines.refl _
  · exact MOrder.grLex_refines _
  · exact MOrder.gRevLex_refines _

/-- C108 for division. -/
theorem C108_divide {n : ℕ} (k : OrdKind) (f : Poly Flt) (divs : List (Poly Flt)) (r : Poly Flt)
    (qs : List (Poly Flt)) :
    letI X := exact powi
    letI := exactF64 powi
    Poly.Clean (Fin n) f → (∀ g ∈ divs, Poly.Clean (Fin n) g) →
    @divide _ X (k.order .debug) f divs = .ok (r, qs) →
    @divide _ (field b powi) (k.order b) f divs = .ok (r, qs) ∧
    Poly.Clean (Fin n) r ∧ qs.length = divs.length ∧ (∀ q ∈ qs, Poly.Clean (Fin n) q) ∧
    Poly.den (Fin n) f = combination n qs divs + Poly.den (Fin n) r ∧
    ∀ e ∈ (Poly.den (Fin n) r).support, ∀ g ∈ divs, Poly.den (Fin n) g ≠ 0 →
      ¬ (k.mathlib n).degree (Poly.den (Fin n) g) ≤ e := by
  let _ := exact powi
  let _ := exactF64 powi
  intro hf hd hr
  obtain ⟨h1, h2, h3, h4⟩ := (C36_divide_identity (k.implements n) f divs hf hd).of_ok hr
  exact ⟨divide_refines (ops_refine b) (order_refines b k) _ _ _ hr, h1, h2, h3, h4,
    (C37_remainder_reduced (k.implements n) f divs hf hd).of_ok hr⟩

/-- C108 for Buchberger's criterion and algorithm. -/
theorem C108_buchberger {n : ℕ} (k : OrdKind) (gens : List (Poly Flt)) :
    letI X := exact powi
    letI := exactF64 powi
    (∀ g ∈ gens, Poly.Clean (Fin n) g ∧ Poly.den (Fin n) g ≠ 0) →
    (∀ r, @buchbergerCriterion _ X (k.order .debug) gens = .ok r →
      @buchbergerCriterion _ (field b powi) (k.order b) gens = .ok r ∧
      (r = true ↔ ∀ f ∈ Ideal.span (dens (Fin n) gens), f ≠ 0 →
        ∃ g ∈ gens, (k.mathlib n).degree (Poly.den (Fin n) g) ≤ (k.mathlib n).degree f)) ∧
    ∀ G, @buchbergerAlgorithm _ X (k.order .debug) gens = .ok G →
      @buchbergerAlgorithm _ (field b powi) (k.order b) gens = .ok G ∧
      (∀ g ∈ G, Poly.Clean (Fin n) g ∧ Poly.den (Fin n) g ≠ 0) ∧
      Ideal.span (dens (Fin n) G) = Ideal.span (dens (Fin n) gens) ∧
      ∀ f ∈ Ideal.span (dens (Fin n) gens), f ≠ 0 →
        ∃ g ∈ G, (k.mathlib n).degree (Poly.den (Fin n) g) ≤ (k.mathlib n).degree f := by
  let _ := exact powi
  let _ := exactF64 powi
  intro hg
  refine ⟨fun r hr => ⟨buchbergerCriterion_refines (ops_refine b) (order_refines b k) _ _ hr,
    (C42_criterion (k.implements n) gens hg).of_ok hr⟩, fun G hG =>
    ⟨buchbergerAlgorithm_refines (ops_refine b) (order_refines b k) _ _ hG, ?_⟩⟩
  obtain ⟨h1, h2⟩ := (C43_ideal (k.implements n) gens hg).of_ok hG
  exact ⟨h1, h2, (C44_groebner (k.implements n) gens hg).of_ok hG⟩

/-- C108 for elimination. -/
theorem C108_elimination {n m : ℕ} (M : Mat Flt) (A : Matrix (Fin n) (Fin m) ℚ)
    (hn : n * n < 18446744073709551616) :
    letI X := exact powi
    letI := exactF64 powi
    M.Represents A →
    (∀ d, @Mat.lu _ X exactEps stability M = .ok d → @Mat.lu _ (field b powi) epsilonEquality stability M = .ok d ∧
      ∃ (σ : Equiv.Perm (Fin n)) (L : Matrix (Fin n) (Fin n) ℚ) (U : Matrix (Fin n) (Fin m) ℚ),
      d.p.Represents (σ.permMatrix ℚ) ∧ d.l.Represents L ∧ d.u.Represents U ∧
      σ.permMatrix ℚ * A = L * U ∧ (∀ i j, i < j → L i j = 0) ∧ IsUnit L) ∧
    ∀ f g, @Mat.rowEchelon _ X exactEps stability M = .ok f → @Form.toRref _ X exactEps f = .ok g →
      @Mat.rowEchelon _ (field b powi) epsilonEquality stability M = .ok f ∧ @Form.toRref _ (field b powi) epsilonEquality f = .ok g ∧
      (∃ (P : Matrix (Fin n) (Fin n) ℚ) (B : Matrix (Fin n) (Fin m) ℚ) (k : ℕ) (piv : Fin k → Fin m),
        g.p.Represents P ∧ g.b.Represents B ∧ g.original = M ∧ IsUnit P ∧ P * A = B ∧
        ReducedRowEchelon B k piv) ∧
      (∀ r k, @Form.rank _ X exactEps g = .ok r → @Form.nullity _ X exactEps g = .ok k →
        @Form.rank _ (field b powi) epsilonEquality g = .ok r ∧
        @Form.nullity _ (field b powi) epsilonEquality g = .ok k ∧
        r = A.rank ∧ k = Module.finrank ℚ (LinearMap.ker A.mulVecLin)) ∧
      ∀ ks, @Form.computeKernel _ X exactEps g = .ok ks → @Form.computeKernel _ (field b powi) epsilonEquality g = .ok ks ∧
        ∃ v : Fin ks.length → Fin m → ℚ, (∀ i, (ks.get i).RepresentsVec (v i)) ∧
        LinearIndependent ℚ v ∧ Submodule.span ℚ (Set.range v) = LinearMap.ker A.mulVecLin := by
  let _ := exact powi
  let _ := exactF64 powi
  let _ := exactEps
  have _ := exactPivot powi
  intro hM
  have hs : ∀ x y : Flt, Refines (Flt.stability.stabilityCmp x y) (Flt.stability.stabilityCmp x y) :=
    fun _ _ => Refines.refl _
  have h := ops_refine (powi := powi) b
  refine ⟨fun d hd => ⟨Mat.lu_refines h eps_ref hs _ _ hd, (C59_lu M A hM hn).of_ok hd⟩, ?_⟩
  intro f g hf hg
  have hr : rref M = .ok g := by rw [rref, hf]; exact hg
  refine ⟨Mat.rowEchelon_refines h eps_ref hs _ _ hf, Form.toRref_refines h eps_ref _ _ hg,
    (C62_rref M A hM hn).of_ok hr, fun r k hk hl => ⟨Form.rank_refines h eps_ref _ _ hk,
      Form.nullity_refines h eps_ref _ _ hl, ?_⟩,
    fun ks hk => ⟨Form.computeKernel_refines h eps_ref _ _ hk, ?_⟩⟩
  · have := (C63_rank_nullity M A hM hn).2
    rw [hr, bind_ok, hk, bind_ok, hl, bind_ok] at this
    exact ⟨this.1, this.2.1⟩
  · have := C64_kernel M A hM hn
    rw [hr, bind_ok] at this
    exact this.of_ok hk

/-- C108 for cones. -/
theorem C108_cone {m : ℕ} (gs : List (Mat Flt)) (v : Fin gs.length → Fin m → ℚ) (c : Cone Flt)
    (hnn : gs.length * gs.length < 18446744073709551616) (hnm : gs.length * m < 18446744073709551616) :
    letI X := exact powi
    letI := exactF64 powi
    (∀ i, (gs.get i).RepresentsVec (v i)) →
    @Cone.new _ X exactEps stability fieldOrd gs = .ok c →
    @Cone.new _ (field b powi) epsilonEquality stability fieldOrd gs = .ok c ∧
    c.generators = gs ∧ c.ambientDim = m ∧
    c.dim = Module.finrank ℚ (Submodule.span ℚ (Set.range v)) ∧
    ∀ f ∈ c.facets, ∃ (s : Fin f.generators.length ↪o Fin gs.length) (x : Fin m → ℚ),
      (∀ i, f.generators.get i = gs.get (s i)) ∧ f.generators.length + 1 = c.dim ∧
      LinearIndependent ℚ (fun i => v (s i)) ∧
      f.normal.RepresentsVec x ∧ x ≠ 0 ∧ (∀ i, 0 ≤ v i ⬝ᵥ x) ∧ ∀ i, v (s i) ⬝ᵥ x = 0 := by
  let _ := exact powi
  let _ := exactF64 powi
  let _ := exactEps
  let _ := fieldOrd
  have _ := exactPivot powi
  have _ := exactOrd powi
  intro hv hc
  have hs : ∀ x y : Flt, Refines (Flt.stability.stabilityCmp x y) (Flt.stability.stabilityCmp x y) :=
    fun _ _ => Refines.refl _
  obtain ⟨h1, h2, h3, h4, -⟩ := C71_cone gs v hv hnn hnm c hc
  exact ⟨Cone.new_refines (ops_refine b) eps_ref hs (fun _ _ => Refines.refl _) _ _ hc, h1, h2, h3, h4⟩

/-! ## Examples for C108 -/

/-- The number nearest to an integer. -/
def ofInt (i : ℤ) : Flt := round (decide (i < 0)) (i.natAbs * unit) 1

/-- A decidable sufficient condition for being canonical, for the examples. -/
def sampleOk (n : ℕ) (p : Poly Flt) : Prop :=
  (∀ t ∈ p, t.coef.value.isSome ∧ t.coef.rat ≠ 0 ∧ t.mdeg.Clean ∧ t.mdeg.length ≤ n) ∧
    (p.map (·.mdeg)).Nodup

instance (n : ℕ) (p : Poly Flt) : Decidable (sampleOk n p) := by
  unfold sampleOk; infer_instance

theorem sampleOk.clean {n : ℕ} {p : Poly Flt} (h : sampleOk n p) :
    @Poly.Clean Flt (exact powi) ℚ _ (exactF64 powi) (Fin n) _ p := by
  let _ := exact powi
  let _ := exactF64 powi
  refine ⟨fun t ht => ?_, h.2⟩
  obtain ⟨h1, h2, h3, h4⟩ := h.1 t ht
  exact ⟨⟨h1, h3, (MDeg.inVars_fin h3).mpr h4⟩, h2⟩

/-- `x^2 y + x y^2 + y^2` -/
def fF : Poly Flt := [⟨ofInt 1, [2, 1]⟩, ⟨ofInt 1, [1, 2]⟩, ⟨ofInt 1, [0, 2]⟩]
/-- `2 x y - 1` -/
def fG₁ : Poly Flt := [⟨ofInt 2, [1, 1]⟩, ⟨ofInt (-1), []⟩]
/-- `y^2 - 1` -/
def fG₂ : Poly Flt := [⟨ofInt 1, [0, 2]⟩, ⟨ofInt (-1), []⟩]
/-- `3 x - 1` -/
def fThird : Poly Flt := [⟨ofInt 3, [1]⟩, ⟨ofInt (-1), []⟩]

example : sampleOk 2 fF ∧ sampleOk 2 fG₁ ∧ sampleOk 2 fG₂ ∧ sampleOk 1 fThird := by fmt_decide

/-- Dividing by a polynomial with leading coefficient 2 is exact here: `C108_divide` applies. -/
example : letI := exact fun x _ => x
    (divide (OrdKind.lex.order .debug) fF [fG₁, fG₂] >>= fun _ => Res.ok ()) = .ok () := by
  let _ := exact fun x _ => x
  refine (Approx.bind (divideN_approx 30 _ _) fun _ => .rfl).eq (z := .ok ()) ?_ (by simp)
  fmt_decide

/-- `C108_buchberger` applies to a basis with a leading coefficient 2. -/
example : letI := exact fun x _ => x
    (buchbergerAlgorithm (OrdKind.lex.order .debug) [fG₁, fG₂] >>= fun _ => Res.ok ()) = .ok () := by
  let _ := exact fun x _ => x
  refine (Approx.bind (buchbergerAlgorithmN_approx 30 _) fun _ => .rfl).eq (z := .ok ()) ?_ (by simp)
  fmt_decide

/-- But dividing `x` by `3 x - 1` is not exact: `1/3` is rounded. -/
example : letI := exact fun x _ => x
    divide (OrdKind.lex.order .debug) [⟨ofInt 1, [1]⟩] [fThird] = .panic inexact := by
  let _ := exact fun x _ => x
  refine (divideN_approx 30 _ _).eq ?_ (by simp)
  fmt_decide

/-- A matrix of integers. -/
def intMat (n m : ℕ) (l : List ℤ) : Mat Flt := ⟨l.map ofInt, n, m⟩

/-- `C108_elimination` applies. -/
example : letI := exact fun x _ => x
    letI := exactEps
    (do let _ ← (intMat 3 3 [2, 1, 0, 4, 4, 4, 1, 1, 1]).lu
        let f ← (intMat 3 3 [2, 1, 0, 4, 4, 4, 1, 1, 1]).rowEchelon
        let g ← f.toRref
        let r ← g.rank
        let k ← g.nullity
        let _ ← g.computeKernel
        Res.ok (r, k)) = .ok (2, 1) := by fmt_decide

/-- The cone spanned by `(1, 1)`, `(1, 0)` and `(0, 1)`. -/
example : letI := exact fun x _ => x
    letI := exactEps
    letI := fieldOrd
    ((fun c => (c.dim, c.facets.map Face.generators)) <$>
        Cone.new [intMat 2 1 [1, 1], intMat 2 1 [1, 0], intMat 2 1 [0, 1]] =
      .ok (2, [[intMat 2 1 [1, 0]], [intMat 2 1 [0, 1]]])) := by fmt_decide

/-! ## C109: integer data -/

/-- C109: sums, differences and products of integers are exact up to `2^prec`. -/
theorem C109_arith (x y : Flt) (i j : ℤ) (hx : x.value = some (i : ℚ)) (hy : y.value = some (j : ℚ)) :
    (|i + j| ≤ 2 ^ prec → (add x y).value = some ((i + j : ℤ) : ℚ)) ∧
    (|i - j| ≤ 2 ^ prec → (sub x y).value = some ((i - j : ℤ) : ℚ)) ∧
    (|i * j| ≤ 2 ^ prec → (mul x y).value = some ((i * j : ℤ) : ℚ)) :=
  ⟨IsInt.add hx hy, IsInt.sub hx hy, IsInt.mul hx hy⟩

/-- C109: sums, differences and products of polynomials with integer coefficients are computed
exactly, if the sum (for products, the product) of the sums of the absolute values of their
coefficients is at most `2^prec` (and exponents do not exceed 255). -/
theorem C109_poly (p q : Poly Flt) :
    letI := exact powi
    letI := exactF64 powi
    Poly.Clean ℕ p → Poly.Clean ℕ q →
    (∀ t ∈ p, ∃ i : ℤ, t.coef.value = some (i : ℚ)) → (∀ t ∈ q, ∃ i : ℤ, t.coef.value = some (i : ℚ)) →
    ((p.map fun t => |t.coef.rat|).sum + (q.map fun t => |t.coef.rat|).sum ≤ 2 ^ prec →
      (∃ r, @Poly.add _ (field b powi) p q = .ok r ∧ Poly.Clean ℕ r ∧
        Poly.den ℕ r = Poly.den ℕ p + Poly.den ℕ q) ∧
      ∃ r, @Poly.sub _ (field b powi) p q = .ok r ∧ Poly.Clean ℕ r ∧
        Poly.den ℕ r = Poly.den ℕ p - Poly.den ℕ q) ∧
    ((p.map fun t => |t.coef.rat|).sum * (q.map fun t => |t.coef.rat|).sum ≤ 2 ^ prec →
      (∀ t ∈ p, ∀ u ∈ q, ∀ i, t.mdeg.deg i + u.mdeg.deg i ≤ 255) →
      ∃ r, @Poly.mul _ (field b powi) p q = .ok r ∧ Poly.Clean ℕ r ∧
        Poly.den ℕ r = Poly.den ℕ p * Poly.den ℕ q) := by
  let _ := exact powi
  let _ := exactF64 powi
  intro hp hq ip iq
  obtain ⟨h1, h2, h3, -⟩ := C108_poly b powi p q zero hp hq rfl
  refine ⟨fun hb => ⟨?_, ?_⟩, fun hb hd => ?_⟩
  · obtain ⟨r, hr, -⟩ := (intData powi).add_int ip iq (by exact_mod_cast hb)
    exact ⟨r, h1 r hr⟩
  · obtain ⟨r, hr, -⟩ := (intData powi).sub_int ip iq (by exact_mod_cast hb)
    exact ⟨r, h2 r hr⟩
  · obtain ⟨r, hr, -⟩ := (intData powi).mul_int ip iq (by exact_mod_cast hb) fun t ht u hu => by
      refine (C16_add _ _ (hq.terms u hu).mdeg (hp.terms t ht).mdeg).2.2.mpr fun i => ?_
      rw [add_comm]; exact hd t ht u hu i
    exact ⟨r, h3 r hr⟩

/-- The integer matrix as a function on all numbers. -/
def intExt {n m : ℕ} (A : Matrix (Fin n) (Fin m) ℤ) (i j : ℕ) : ℤ :=
  if h : i < n ∧ j < m then A ⟨i, h.1⟩ ⟨j, h.2⟩ else 0

omit [Fmt] in
theorem intExt_of_lt {n m : ℕ} (A : Matrix (Fin n) (Fin m) ℤ) {i j : ℕ} (hi : i < n) (hj : j < m) :
    intExt A i j = A ⟨i, hi⟩ ⟨j, hj⟩ := by
  rw [intExt, dif_pos ⟨hi, hj⟩]

omit [Fmt] in
theorem matExt_map {n m : ℕ} (A : Matrix (Fin n) (Fin m) ℤ) :
    matExt (A.map (Int.cast : ℤ → ℚ)) = fun i j => (intExt A i j : ℚ) := by
  funext i j
  unfold matExt intExt
  split <;> simp

/-- C109: sums and products of integer matrices are computed exactly, if the entries of the sum, for
products the sums of the absolute values of the products of entries, are at most `2^prec`. -/
theorem C109_mat {n m q : ℕ} (M M' N : Mat Flt) (A A' : Matrix (Fin n) (Fin m) ℤ)
    (B : Matrix (Fin m) (Fin q) ℤ) (hnq : n * q < 18446744073709551616) :
    letI := exact powi
    letI := exactF64 powi
    M.Represents (A.map (Int.cast : ℤ → ℚ)) → M'.Represents (A'.map (Int.cast : ℤ → ℚ)) →
    N.Represents (B.map (Int.cast : ℤ → ℚ)) →
    ((∀ i j, |A i j + A' i j| ≤ 2 ^ prec) → ∃ R, @Mat.add _ (field b powi) M M' = .ok R ∧
      R.Represents ((A + A').map (Int.cast : ℤ → ℚ))) ∧
    ((∀ i j, ∑ k, |A i k * B k j| ≤ 2 ^ prec) → ∃ R, @Mat.mul _ (field b powi) M N = .ok R ∧
      R.Represents ((A * B).map (Int.cast : ℤ → ℚ))) := by
  let _ := exact powi
  let _ := exactF64 powi
  intro hM hM' hN
  have h := ops_refine (powi := powi) b
  have e1 := hM.is
  have e2 := hM'.is
  have e3 := hN.is
  rw [matExt_map] at e1 e2 e3
  refine ⟨fun hb => ?_, fun hb => ?_⟩
  · obtain ⟨R, hR, -⟩ := (intData powi).matAdd_int (intMat_of_is powi e1) (intMat_of_is powi e2) fun i j hi hj => by
      rw [intExt_of_lt A hi hj, intExt_of_lt A' hi hj]; exact hb _ _
    refine ⟨R, Mat.add_refines h _ _ _ hR, ?_⟩
    have := (C52_add M M' _ _ hM hM').of_ok hR
    convert this using 1
    ext i j
    simp
  · obtain ⟨R, hR, -⟩ := (intData powi).matMul_int (intMat_of_is powi e1) (intMat_of_is powi e3) fun i j hi hj => by
      rw [Finset.sum_range]
      refine le_of_eq_of_le ?_ (hb ⟨i, hi⟩ ⟨j, hj⟩)
      refine Finset.sum_congr rfl fun k _ => ?_
      rw [intExt_of_lt A hi k.2, intExt_of_lt B k.2 hj]
    refine ⟨R, Mat.mul_refines h _ _ _ hR, ?_⟩
    have := (C52_mul M N _ _ hM hN hnq).of_ok hR
    convert this using 1
    ext i j
    simp [Matrix.mul_apply]

/-- C109: inner products of integer vectors are computed exactly, if the sum of the absolute values
of the products is at most `2^prec`. -/
theorem C109_dot {n : ℕ} (M N : Mat Flt) (v w : Fin n → ℤ) :
    letI := exact powi
    letI := exactF64 powi
    M.RepresentsVec (fun i => (v i : ℚ)) → N.RepresentsVec (fun i => (w i : ℚ)) →
    (∑ i, |v i * w i| ≤ 2 ^ prec) →
    ∃ c, @Mat.dot _ (field b powi) M N = .ok c ∧ c.value = some ((v ⬝ᵥ w : ℤ) : ℚ) := by
  let _ := exact powi
  let _ := exactF64 powi
  intro hM hN hb
  have e1 := hM.is
  have e2 := hN.is
  have hmap : ∀ v : Fin n → ℤ, (Matrix.of fun i (_ : Fin 1) => (v i : ℚ)) =
      (Matrix.of fun i (_ : Fin 1) => v i).map (Int.cast : ℤ → ℚ) := fun v => rfl
  rw [hmap, matExt_map] at e1 e2
  obtain ⟨c, hc, -⟩ := (intData powi).matDot_int (intMat_of_is powi e1) (intMat_of_is powi e2) (by
    rw [Finset.sum_range]
    refine le_of_eq_of_le ?_ hb
    refine Finset.sum_congr rfl fun k _ => ?_
    rw [Finset.sum_range_one, intExt_of_lt _ k.2 one_pos, intExt_of_lt _ k.2 one_pos]
    rfl)
  obtain ⟨hw, hv⟩ := (C56_dot M N _ _ hM hN).of_ok hc
  refine ⟨c, Mat.dot_refines (ops_refine b) _ _ _ hc, ?_⟩
  rw [value_some hw]
  refine congrArg some (hv.trans ?_)
  simp [dotProduct]

/-- The hypotheses of `C109_poly` hold of the samples above, and those of `C109_mat` of an integer
matrix. -/
example : (∀ t ∈ fF, ∃ i : ℤ, t.coef.value = some (i : ℚ)) ∧
    (∀ t ∈ fG₁, ∃ i : ℤ, t.coef.value = some (i : ℚ)) ∧
    (fF.map fun t => |t.coef.rat|).sum * (fG₁.map fun t => |t.coef.rat|).sum ≤ 2 ^ prec ∧
    (letI := exact powi
     letI := exactF64 powi
     (intMat 2 2 [1, -2, 3, 4]).Represents
      ((!![1, -2; 3, 4] : Matrix (Fin 2) (Fin 2) ℤ).map (Int.cast : ℤ → ℚ))) := by
  refine ⟨?_, ?_, by fmt_decide, ?_⟩
  · intro t ht
    refine ⟨1, ?_⟩
    revert t
    fmt_decide
  · intro t ht
    simp only [fG₁, List.mem_cons, List.not_mem_nil, or_false] at ht
    rcases ht with rfl | rfl
    · exact ⟨2, by fmt_decide⟩
    · exact ⟨-1, by fmt_decide⟩
  · let _ := exact powi
    let _ := exactF64 powi
    refine ⟨rfl, rfl, rfl, by norm_num, by norm_num, by norm_num, ?_⟩
    intro i j
    fin_cases i <;> fin_cases j
    · exact ⟨ofInt 1, rfl, show (ofInt 1).value.isSome = true by fmt_decide, by change (ofInt 1).rat = ((1 : ℤ) : ℚ); fmt_decide⟩
    · exact ⟨ofInt (-2), rfl, show (ofInt (-2)).value.isSome = true by fmt_decide, by
        change (ofInt (-2)).rat = ((-2 : ℤ) : ℚ); fmt_decide⟩
    · exact ⟨ofInt 3, rfl, show (ofInt 3).value.isSome = true by fmt_decide, by change (ofInt 3).rat = ((3 : ℤ) : ℚ); fmt_decide⟩
    · exact ⟨ofInt 4, rfl, show (ofInt 4).value.isSome = true by fmt_decide, by change (ofInt 4).rat = ((4 : ℤ) : ℚ); fmt_decide⟩

/-- The bound is the best possible: `2^prec + 1` is rounded to `2^prec`. -/
example : (add (ofInt (2 ^ prec)) (ofInt 1)).value = some (2 ^ prec) ∧
    (mul (ofInt (2 ^ prec + 2)) (ofInt 3)).value ≠ some ((2 ^ prec + 2) * 3) := by fmt_decide

end Flt
end Verif
