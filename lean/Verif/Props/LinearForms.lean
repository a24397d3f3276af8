import Verif.Props.Subspaces
import Verif.Props.IdealOps
import Mathlib.Algebra.MvPolynomial.PDeriv

/-!
# Property C242: linear forms as polynomials and as vectors
-/

set_option linter.unusedSectionVars false

namespace Verif
open Res MvPolynomial LawfulRField LinAlg

section
variable {K : Type} [Field K] {n : ℕ}

/-- The linear form with the given coefficients. -/
noncomputable def linForm (w : Fin n → K) : MvPolynomial (Fin n) K := ∑ j, C (w j) * X j

theorem eval_linForm (w x : Fin n → K) : eval x (linForm w) = w ⬝ᵥ x := by
  simp [linForm, dotProduct]

theorem pderiv_linForm (w : Fin n → K) (j : Fin n) : pderiv j (linForm w) = C (w j) := by
  classical
  rw [linForm, map_sum, Finset.sum_eq_single j]
  · rw [pderiv_C_mul, pderiv_X_self, mul_one]
  · intro i _ hi
    rw [pderiv_C_mul, pderiv_X_of_ne hi, mul_zero]
  · simp

theorem linForm_add (v w : Fin n → K) : linForm (v + w) = linForm v + linForm w := by
  simp [linForm, add_mul, Finset.sum_add_distrib]

theorem linForm_smul (c : K) (w : Fin n → K) : linForm (c • w) = C c * linForm w := by
  simp [linForm, Finset.mul_sum, mul_assoc]

/-- A linear form is in the ideal of others exactly when it is a combination of them with coefficients in
the field. -/
theorem linForm_mem_iff {ι : Type} (v : ι → Fin n → K) (w : Fin n → K) :
    linForm w ∈ Ideal.span (Set.range fun i => linForm (v i)) ↔ w ∈ Submodule.span K (Set.range v) := by
  constructor
  · intro h
    have key : ∀ p ∈ Ideal.span (Set.range fun i => linForm (v i)),
        (fun j => eval 0 (pderiv j p)) ∈ Submodule.span K (Set.range v) ∧ eval (0 : Fin n → K) p = 0 := by
      intro p hp
      refine Submodule.span_induction ?_ ?_ ?_ ?_ hp
      · rintro _ ⟨i, rfl⟩
        refine ⟨?_, by rw [eval_linForm, dotProduct_zero]⟩
        simp only [pderiv_linForm, eval_C]
        exact Submodule.subset_span ⟨i, rfl⟩
      · exact ⟨by simp only [map_zero]; exact Submodule.zero_mem _, map_zero _⟩
      · rintro p q _ _ ⟨h1, h2⟩ ⟨h3, h4⟩
        refine ⟨?_, by rw [map_add, h2, h4, add_zero]⟩
        simp only [map_add]
        exact Submodule.add_mem _ h1 h3
      · rintro a p _ ⟨h1, h2⟩
        refine ⟨?_, by rw [smul_eq_mul, map_mul, h2, mul_zero]⟩
        have : (fun j => eval 0 (pderiv j (a • p))) = eval 0 a • fun j => eval 0 (pderiv j p) := by
          funext j
          simp only [smul_eq_mul, Derivation.leibniz, map_add, map_mul, h2, Pi.smul_apply, zero_mul,
            add_zero]
        rw [this]
        exact Submodule.smul_mem _ _ h1
    have := (key _ h).1
    simpa only [pderiv_linForm, eval_C] using this
  · intro h
    refine Submodule.span_induction (p := fun w _ => linForm w ∈ Ideal.span (Set.range fun i => linForm (v i)))
      ?_ ?_ ?_ ?_ h
    · rintro _ ⟨i, rfl⟩
      exact Ideal.subset_span ⟨i, rfl⟩
    · have : linForm (0 : Fin n → K) = 0 := by simp [linForm]
      rw [this]
      exact Submodule.zero_mem _
    · intro x y _ _ hx hy
      rw [linForm_add]
      exact Ideal.add_mem _ hx hy
    · intro c x _ hx
      rw [linForm_smul]
      exact Ideal.mul_mem_left _ _ hx

end

section
variable {F : Type} [RField F] {K : Type} [Field K] [LawfulRField F K] [EpsilonEquality F]
  [StabilityCmp F] [LawfulPivot F K] {n : ℕ} {O : MOrder} {m : MonomialOrder (Fin n)}

variable (gens : List (Poly F)) (vs : List (Mat F)) (v : Fin vs.length → Fin n → K)
  (hg : ∀ g ∈ gens, Poly.Clean (Fin n) g ∧ Poly.den (Fin n) g ≠ (0 : MvPolynomial (Fin n) K))
  (hd : dens (Fin n) gens = Set.range fun i => linForm (v i))
  (hne : vs ≠ []) (hv : ∀ k, (vs.get k).RepresentsVec (v k))
include hg hd hne hv

/-- C242. For linear forms, division by the Gröbner basis and the ranks of the matrices of coefficients give
the same answer. -/
theorem C242_membership (hO : Implements O m) (f : Poly F) (W : Mat F) (w : Fin n → K)
    (hf : Poly.Clean (Fin n) f) (hfw : Poly.den (Fin n) f = linForm w) (hW : W.RepresentsVec w)
    (hl : (vs.length + 1) * (vs.length + 1) < 18446744073709551616)
    (hnl : n * (vs.length + 1) < 18446744073709551616) :
    Spec (PolyPanic F) (do
      let b ← (do
        let G ← Computer.buchbergerAlgorithm O gens
        let (r, _) ← Computer.divide O f G
        pure r.isZero)
      let x ← (do
        let A ← Mat.fromRowVectors vs
        let B ← Mat.fromRowVectors (vs ++ [W])
        let r ← rankOf A
        let s ← rankOf B
        pure (r, s))
      pure (b, x)) (fun y => y.1 = true ↔ y.2.1 = y.2.2) := by
  refine (C107_membership hO gens hg f hf).bind fun b hb => ?_
  refine ((C239_contained vs [W] v (fun _ => w) hne hv (fun k => ?_) (by simpa using hl)
    (by simpa using hnl)).mono polyPanic_allowed fun _ h => h).bind fun x hx => ?_
  · have hk : k = ⟨0, by simp⟩ := Fin.ext (Nat.lt_one_iff.mp k.2)
    subst hk
    exact hW
  · show b = true ↔ x.1 = x.2
    rw [hb, hx, hfw, hd, linForm_mem_iff, Submodule.span_le, Set.range_subset_iff]
    exact ⟨fun h _ => h, fun h => h ⟨0, by simp⟩⟩

/-- C242. The common zeros of the Gröbner basis are the combinations of the vectors of `compute_kernel` of
the matrix of coefficients. -/
theorem C242_zeros (hO : Implements O m) (hl : vs.length * vs.length < 18446744073709551616)
    (hnl : vs.length * n < 18446744073709551616) :
    Spec (PolyPanic F) (do
      let G ← Computer.buchbergerAlgorithm O gens
      let A ← Mat.fromRowVectors vs
      let ks ← kernelOf A
      pure (G, ks)) (fun y => ∃ w : Fin y.2.length → Fin n → K,
        (∀ i, (y.2.get i).RepresentsVec (w i)) ∧ LinearIndependent K w ∧
        ∀ x, (∀ g ∈ y.1, eval x (Poly.den (Fin n) g : MvPolynomial (Fin n) K) = 0) ↔
          x ∈ Submodule.span K (Set.range w)) := by
  refine (algorithm_spec hO gens hg (fun _ => True) trivial fun _ _ => trivial).bind fun G h => ?_
  rw [← bind_assoc]
  refine ((equationsOf_spec vs v hne hv hl hnl).mono polyPanic_allowed fun _ h => h).bind
    fun ks ⟨w, h1, h2, h3⟩ => ?_
  refine ⟨w, h1, h2, fun x => ?_⟩
  have hzero : ∀ S : Set (MvPolynomial (Fin n) K), (∀ p ∈ S, eval x p = 0) ↔
      Ideal.span S ≤ RingHom.ker (eval x) := fun S => by
    rw [Ideal.span_le]; rfl
  have hG : (∀ g ∈ G, eval x (Poly.den (Fin n) g : MvPolynomial (Fin n) K) = 0) ↔
      ∀ p ∈ dens (Fin n) G, eval x p = 0 :=
    ⟨fun h p ⟨g, hg, e⟩ => e ▸ h g hg, fun h g hg => h _ ⟨g, hg, rfl⟩⟩
  show (∀ g ∈ G, eval x (Poly.den (Fin n) g : MvPolynomial (Fin n) K) = 0) ↔ _
  rw [hG, hzero, h.2.1.span_eq, ← hzero, hd, Set.forall_mem_range, h3, LinearMap.mem_ker,
    Matrix.mulVecLin_apply, mulVec_of_eq_zero]
  simp only [eval_linForm]

end

/-! ### Examples -/

/-- `x - y` and `y - z` satisfy the hypotheses, with the rows `(1, -1, 0)` and `(0, 1, -1)`; so does `x - z`. -/
theorem C242_sample : letI := Rational.field .debug
    letI := Rational.lawful
    let f : Poly Rational := [⟨⟨1, 1⟩, [1]⟩, ⟨⟨-1, 1⟩, [0, 0, 1]⟩]
    let gens : List (Poly Rational) := [[⟨⟨1, 1⟩, [1]⟩, ⟨⟨-1, 1⟩, [0, 1]⟩], [⟨⟨1, 1⟩, [0, 1]⟩, ⟨⟨-1, 1⟩, [0, 0, 1]⟩]]
    let v : Fin 2 → Fin 3 → ℚ := ![![1, -1, 0], ![0, 1, -1]]
    (∀ g ∈ f :: gens, Poly.Clean (Fin 3) g ∧ Poly.den (Fin 3) g ≠ (0 : MvPolynomial (Fin 3) ℚ)) ∧
    Poly.den (Fin 3) f = linForm ![(1 : ℚ), 0, -1] ∧ dens (Fin 3) gens = Set.range fun i => linForm (v i) := by
  let _ := Rational.field .debug
  let _ := Rational.lawful
  have hv : ∀ k : ℤ, (val (⟨k, 1⟩ : Rational) : ℚ) = k := fun k => by
    change Rational.val _ = _
    unfold Rational.val
    simp
  have e2 : MDeg.toF (Fin 3) [1] = Finsupp.single 0 1 := by ext i; fin_cases i <;> simp <;> rfl
  have e3 : MDeg.toF (Fin 3) [0, 1] = Finsupp.single 1 1 := by ext i; fin_cases i <;> simp <;> rfl
  have e4 : MDeg.toF (Fin 3) [0, 0, 1] = Finsupp.single 2 1 := by ext i; fin_cases i <;> simp <;> rfl
  intro f gens v
  have key : ∀ (a b : MDeg) (i j : Fin 3), MDeg.toF (Fin 3) a = Finsupp.single i 1 →
      MDeg.toF (Fin 3) b = Finsupp.single j 1 →
      (Poly.den (Fin 3) ([⟨⟨1, 1⟩, a⟩, ⟨⟨-1, 1⟩, b⟩] : Poly Rational) : MvPolynomial (Fin 3) ℚ) = X i - X j := by
    intro a b i j ha hb
    rw [Poly.den_cons, Poly.den_cons, Poly.den_nil, add_zero, Term.den, Term.den]
    simp only [hv, ha, hb, Int.cast_one, Int.cast_neg, map_neg]
    rw [← sub_eq_add_neg]
    rfl
  have h1 := key [1] [0, 0, 1] 0 2 e2 e4
  have h2 := key [1] [0, 1] 0 1 e2 e3
  have h3 := key [0, 1] [0, 0, 1] 1 2 e3 e4
  have l1 : linForm ![(1 : ℚ), 0, -1] = X 0 - X 2 := by
    simp [linForm, Fin.sum_univ_three, sub_eq_add_neg]
  have l2 : linForm ![(1 : ℚ), -1, 0] = X 0 - X 1 := by
    simp [linForm, Fin.sum_univ_three, sub_eq_add_neg]
  have l3 : linForm ![(0 : ℚ), 1, -1] = X 1 - X 2 := by
    simp [linForm, Fin.sum_univ_three, sub_eq_add_neg]
  refine ⟨sampleGens (k := 3) (by decide), h1.trans l1.symm, ?_⟩
  ext p
  constructor
  · rintro ⟨g, hg, rfl⟩
    rcases List.mem_cons.mp hg with rfl | hg
    · exact ⟨0, l2.trans h2.symm⟩
    · rw [List.mem_singleton.mp hg]
      exact ⟨1, l3.trans h3.symm⟩
  · rintro ⟨i, rfl⟩
    fin_cases i
    · exact ⟨_, List.mem_cons_self, l2.trans h2.symm⟩
    · exact ⟨_, List.mem_cons_of_mem _ List.mem_cons_self, l3.trans h3.symm⟩

/-- The two computations of `C242_membership` and the kernel of `C242_zeros` for these. -/
theorem C242_run : letI := Rational.field .debug
    letI := Rational.stability .debug
    let f : Poly Rational := [⟨⟨1, 1⟩, [1]⟩, ⟨⟨-1, 1⟩, [0, 0, 1]⟩]
    let gens : List (Poly Rational) := [[⟨⟨1, 1⟩, [1]⟩, ⟨⟨-1, 1⟩, [0, 1]⟩], [⟨⟨1, 1⟩, [0, 1]⟩, ⟨⟨-1, 1⟩, [0, 0, 1]⟩]]
    (do
      let G ← Computer.buchbergerAlgorithm (OrdKind.lex.order .debug) gens
      let (r, _) ← Computer.divide (OrdKind.lex.order .debug) f G
      pure r.isZero) = .ok true ∧
    (do
      let A ← Mat.fromRowVectors [ratMat 3 1 [1, -1, 0], ratMat 3 1 [0, 1, -1]]
      let B ← Mat.fromRowVectors [ratMat 3 1 [1, -1, 0], ratMat 3 1 [0, 1, -1], ratMat 3 1 [1, 0, -1]]
      let r ← rankOf A
      let s ← rankOf B
      pure (r, s)) = .ok (2, 2) ∧
    (do
      let A ← Mat.fromRowVectors [ratMat 3 1 [1, -1, 0], ratMat 3 1 [0, 1, -1]]
      kernelOf A) = .ok [ratMat 3 1 [1, 1, 1]] := by
  let _ := Rational.field .debug
  let _ := Rational.stability .debug
  refine ⟨?_, by decide +kernel, by decide +kernel⟩
  refine bind_eq_ok.mpr ⟨[[⟨⟨1, 1⟩, [0, 1]⟩, ⟨⟨-1, 1⟩, [0, 0, 1]⟩], [⟨⟨1, 1⟩, [1]⟩, ⟨⟨-1, 1⟩, [0, 0, 1]⟩]],
    (Computer.buchbergerAlgorithmN_approx 60 _).eq (by decide +kernel) (by simp), ?_⟩
  exact bind_eq_ok.mpr ⟨([], [[], [⟨⟨1, 1⟩, []⟩]]),
    (Computer.divideN_approx 60 _ _).eq (by decide +kernel) (by simp), rfl⟩

end Verif
