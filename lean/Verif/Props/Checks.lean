import Verif.Props.Solve
import Verif.Props.F64Exact

/-!
# Properties C195 and C196: the identities of the documentation, checked with the library itself

The documentation of `lu` says `(p * self).epsilon_equals(l * u)` and
`self.epsilon_equals(p.transpose() * l * u)`, that of `RowEquivalentForm` `p * a = b`, and `p` is the inverse
of `a` if `b` is the identity.  Here these checks are programs that call the operators of the library.
-/

namespace Verif
open Res LawfulRField LinAlg Matrix

section
variable {F : Type} [RField F] [EpsilonEquality F] [StabilityCmp F]

/-- The checks of the documentation of `lu`: `(p * self).epsilon_equals(l * u)`,
`self.epsilon_equals(p.transpose() * l * u)`, `l.is_lower_triangular()`, `u.is_upper_triangular()`. -/
def luChecks (M : Mat F) : Res (Bool × Bool × Bool × Bool) := do
  let d ← M.lu
  let pm ← d.p.mul M
  let lu ← d.l.mul d.u
  let c₁ ← pm.epsilonEquals lu
  let pt ← d.p.transpose
  let ptl ← pt.mul d.l
  let ptlu ← ptl.mul d.u
  let c₂ ← M.epsilonEquals ptlu
  let c₃ ← d.l.isLowerTriangular
  let c₄ ← d.u.isUpperTriangular
  pure (c₁, c₂, c₃, c₄)

/-- `(p * original).epsilon_equals(b)` for the row echelon form and for the reduced one. -/
def formChecks (M : Mat F) : Res (Bool × Bool) := do
  let f ← M.rowEchelon
  let pa ← f.p.mul f.original
  let c₁ ← pa.epsilonEquals f.b
  let g ← f.toRref
  let pa ← g.p.mul g.original
  let c₂ ← pa.epsilonEquals g.b
  pure (c₁, c₂)

/-- `original * v` against the zero vector for every vector of the basis of the kernel. -/
def kernelChecks (M : Mat F) : Res (List Bool) := do
  let f ← M.rowEchelon
  let g ← f.toRref
  let ks ← g.computeKernel
  ks.mapM fun v => do
    let w ← g.original.mul v
    w.epsilonEquals (Mat.zero M.rows 1)

/-- Whether the reduced form is the identity, and whether then `p` is inverse to the matrix from both sides. -/
def inverseChecks (M : Mat F) : Res (Bool × Bool × Bool) := do
  let f ← M.rowEchelon
  let g ← f.toRref
  let c ← g.b.epsilonEquals (Mat.identity M.rows)
  let pa ← g.p.mul M
  let c₁ ← pa.epsilonEquals (Mat.identity M.rows)
  let ap ← M.mul g.p
  let c₂ ← ap.epsilonEquals (Mat.identity M.rows)
  pure (c, c₁, c₂)

end

section
variable {F : Type} [RField F] {K : Type} [Field K] [LawfulRField F K] [EpsilonEquality F] [StabilityCmp F]
  [LawfulPivot F K]

/-- Matrices with the same values are `epsilon_equals`. -/
theorem Mat.Represents.epsilonEquals {n m : ℕ} {M N : Mat F} {A : Matrix (Fin n) (Fin m) K}
    (hM : M.Represents A) (hN : N.Represents A) :
    Spec (allowed F) (M.epsilonEquals N) (· = true) := by
  unfold Mat.epsilonEquals
  refine Spec.bind (LawfulRField.sub_spec (F := F) _ _ wf_zero wf_one) fun s hs => ?_
  refine Spec.bind (hN.is.smul hs.1) fun o ho => ?_
  refine Spec.bind (hM.is.add ho) fun d hd => ?_
  refine Spec.bind hd.frobeniusNorm fun x hx => ?_
  refine (LawfulPivot.eps_zero (F := F) x hx.1).imp fun b hb => hb.mpr ?_
  rw [hx.2, hs.2, val_zero, val_one]
  refine Finset.sum_eq_zero fun i _ => Finset.sum_eq_zero fun j _ => ?_
  ring

/-- C195. Where nothing overflows, all checks of `lu` succeed, for every exact coefficient type. -/
theorem C195_lu {n m : ℕ} (M : Mat F) (A : Matrix (Fin n) (Fin m) K) (hM : M.Represents A)
    (hn : n * n < 18446744073709551616) :
    Spec (allowed F) (luChecks M) (· = (true, true, true, true)) := by
  unfold luChecks
  refine (lu_spec M A hM hn).bind ?_
  rintro d ⟨σ, L, U, hp, hl, hu, hpa, hlow, -, k, piv, hech⟩
  refine (C52_mul _ _ _ _ hp hM hM.len_lt).bind fun pm hpm => ?_
  refine (C52_mul _ _ _ _ hl hu hM.len_lt).bind fun lu hlu => ?_
  refine Spec.bind (Mat.Represents.epsilonEquals hpm (hpa ▸ hlu)) ?_
  rintro _ rfl
  refine Spec.bind ((C53_transpose _ _ hp).mono (fun _ h => h.elim) fun _ h => h) fun pt hpt => ?_
  refine (C52_mul _ _ _ _ hpt hl hn).bind fun ptl hptl => ?_
  refine (C52_mul _ _ _ _ hptl hu hM.len_lt).bind fun ptlu hptlu => ?_
  have hA : (σ.permMatrix K).transpose * L * U = A := by
    rw [Matrix.mul_assoc, ← hpa, ← Matrix.mul_assoc]
    have : (σ.permMatrix K).transpose * σ.permMatrix K = 1 := by
      rw [Matrix.transpose_permMatrix, ← Matrix.permMatrix_mul]
      simp
    rw [this, Matrix.one_mul]
  rw [hA] at hptlu
  refine Spec.bind (Mat.Represents.epsilonEquals hM hptlu) ?_
  rintro _ rfl
  refine Spec.bind (C58_triangular _ _ hl).2 fun c₃ h₃ => ?_
  refine Spec.bind (C58_triangular _ _ hu).1 fun c₄ h₄ => ?_
  obtain rfl := h₃.mpr fun i j h => hlow i j h
  obtain rfl := h₄.mpr fun i j h => hech.upper i j h
  rfl

/-- C195. `p * original` and `b` are `epsilon_equals`, for the row echelon form and the reduced one. -/
theorem C195_form {n m : ℕ} (M : Mat F) (A : Matrix (Fin n) (Fin m) K) (hM : M.Represents A)
    (hn : n * n < 18446744073709551616) :
    Spec (allowed F) (formChecks M) (· = (true, true)) := by
  unfold formChecks
  refine (hM.is.rowEchelon hn).bind ?_
  rintro f ⟨b, k, piv, hf, he⟩
  obtain ⟨p, hp, hu, hpa⟩ := hf.p_is
  rw [mat_matExt] at hpa
  rw [hf.original]
  have hP : f.p.Represents (mat n n p) := hp.represents fun _ _ => rfl
  have hB : f.b.Represents (mat n m b) := hf.b_is.represents fun _ _ => rfl
  refine (C52_mul _ _ _ _ hP hM hM.len_lt).bind fun pm hpm => ?_
  refine Spec.bind (Mat.Represents.epsilonEquals (hpa ▸ hpm) hB) ?_
  rintro _ rfl
  refine (hf.toRref he).bind ?_
  rintro g ⟨b', hg, he'⟩
  obtain ⟨p', hp', hu', hpa'⟩ := hg.p_is
  rw [mat_matExt] at hpa'
  rw [hg.original]
  have hP' : g.p.Represents (mat n n p') := hp'.represents fun _ _ => rfl
  have hB' : g.b.Represents (mat n m b') := hg.b_is.represents fun _ _ => rfl
  refine (C52_mul _ _ _ _ hP' hM hM.len_lt).bind fun pm hpm => ?_
  refine Spec.bind (Mat.Represents.epsilonEquals (hpa' ▸ hpm) hB') ?_
  rintro _ rfl
  rfl

/-- C195. The matrix times a vector of the basis of the kernel is `epsilon_equals` to zero. -/
theorem C195_kernel {n m : ℕ} (M : Mat F) (A : Matrix (Fin n) (Fin m) K) (hM : M.Represents A)
    (hn : n * n < 18446744073709551616) :
    Spec (allowed F) (kernelChecks M) (fun cs => cs = List.replicate (m - A.rank) true) := by
  have e : kernelChecks M = (do
      let g ← rref M
      let ks ← g.computeKernel
      ks.mapM fun v => do
        let w ← g.original.mul v
        w.epsilonEquals (Mat.zero M.rows 1)) := by
    unfold kernelChecks rref
    simp only [bind_assoc]
  rw [e]
  have hr := hM.rows
  refine (rref_spec M A hM hn).bind ?_
  rintro g ⟨b, k, piv, hg, he⟩
  refine (hg.computeKernel he.toEch).bind fun ks hks => ?_
  obtain ⟨hl, hv⟩ := forall₂_vecs hks
  obtain ⟨h1, h2⟩ := he.kernel_basis
  obtain ⟨p, _, hu, hpa⟩ := hg.p_is
  rw [mat_matExt] at hpa
  have hker : ∀ q, A.mulVec (fun j : Fin m => kv b k piv ((freeCols m k piv).get q) j) = 0 := by
    intro q
    have hq : (fun j : Fin m => kv b k piv ((freeCols m k piv).get q) j) ∈
        LinearMap.ker (mat n m b).mulVecLin := by
      rw [← h2]
      exact Submodule.subset_span ⟨q, rfl⟩
    rwa [LinearMap.mem_ker, Matrix.mulVecLin_apply, ← hpa, mulVec_unit hu] at hq
  have hlen : ks.length = m - A.rank := by
    have hc := finrank_span_eq_card h1
    have hk2 : LinearMap.ker (mat n m b).mulVecLin = LinearMap.ker A.mulVecLin := by
      ext x
      rw [LinearMap.mem_ker, LinearMap.mem_ker, Matrix.mulVecLin_apply, Matrix.mulVecLin_apply, ← hpa,
        mulVec_unit hu]
    rw [h2, hk2, Fintype.card_fin] at hc
    have hrn := LinearMap.finrank_range_add_finrank_ker A.mulVecLin
    rw [Module.finrank_fin_fun] at hrn
    have hrk : A.rank = Module.finrank K (LinearMap.range A.mulVecLin) := rfl
    omega
  refine Spec.imp (mapM_spec (P := fun _ c => c = true) fun v hv' => ?_) fun cs hcs => ?_
  · obtain ⟨i, rfl⟩ := List.mem_iff_get.mp hv'
    rw [hg.original]
    refine (C52_mul _ _ _ _ hM (hv i) (by rw [Nat.mul_one]; exact hM.rows_lt)).bind fun w hw => ?_
    refine Mat.Represents.epsilonEquals hw ?_
    rw [hr]
    have h0 := C51_zero (F := F) (K := K) n 1 hM.rows_lt (by norm_num) (by rw [Nat.mul_one]; exact hM.rows_lt)
    have e0 : A * (Matrix.of fun (j : Fin m) (_ : Fin 1) =>
        kv b k piv ((freeCols m k piv).get (i.cast hl)) j) = 0 := by
      ext r c
      exact congrFun (hker (i.cast hl)) r
    exact e0 ▸ h0
  · rw [← hlen, hcs.length_eq]
    refine List.eq_replicate_iff.mpr ⟨rfl, fun c hc => ?_⟩
    obtain ⟨i, hi, rfl⟩ := List.mem_iff_getElem.mp hc
    exact hcs.get (hcs.length_eq ▸ hi) hi

/-- C195. For an invertible matrix the reduced form is `epsilon_equals` to the identity, and `p` is its inverse
from the left and from the right. -/
theorem C195_inverse {n : ℕ} (M : Mat F) (A : Matrix (Fin n) (Fin n) K) (hM : M.Represents A)
    (hA : IsUnit A) : Spec (allowed F) (inverseChecks M) (· = (true, true, true)) := by
  have e : inverseChecks M = (do
      let g ← rref M
      let c ← g.b.epsilonEquals (Mat.identity M.rows)
      let pa ← g.p.mul M
      let c₁ ← pa.epsilonEquals (Mat.identity M.rows)
      let ap ← M.mul g.p
      let c₂ ← ap.epsilonEquals (Mat.identity M.rows)
      pure (c, c₁, c₂)) := by
    unfold inverseChecks rref
    simp only [bind_assoc]
  rw [e, hM.rows]
  have h1 := C51_identity (F := F) (K := K) n hM.rows_lt hM.len_lt
  refine (C62_rref M A hM hM.len_lt).bind ?_
  rintro g ⟨P, B, k, piv, hP, hB, -, hu, hPA, hred⟩
  have hBu : IsUnit B := by rw [← hPA]; exact hu.mul hA
  have hk : k = n := hred.toRowEchelon.rank_full (row_ne_zero_of_isUnit hBu)
  subst hk
  have hB1 : B = 1 := hred.eq_one
  rw [hB1] at hPA hB
  refine (Mat.Represents.epsilonEquals hB h1).bind ?_
  rintro _ rfl
  refine (C52_mul _ _ _ _ hP hM hM.len_lt).bind fun pa hpa => ?_
  rw [hPA] at hpa
  refine (Mat.Represents.epsilonEquals hpa h1).bind ?_
  rintro _ rfl
  refine (C52_mul _ _ _ _ hM hP hM.len_lt).bind fun ap hap => ?_
  rw [mul_eq_one_comm.mp hPA] at hap
  refine (Mat.Represents.epsilonEquals hap h1).bind ?_
  rintro _ rfl
  rfl

/-- Over an ordered field, `epsilon_equals` is equality of the values. -/
theorem Mat.Represents.epsilonEquals_iff [LinearOrder K] [IsStrictOrderedRing K] {n m : ℕ} {M N : Mat F}
    {A B : Matrix (Fin n) (Fin m) K} (hM : M.Represents A) (hN : N.Represents B) :
    Spec (allowed F) (M.epsilonEquals N) (fun c => c = true ↔ A = B) := by
  unfold Mat.epsilonEquals
  refine Spec.bind (LawfulRField.sub_spec (F := F) _ _ wf_zero wf_one) fun s hs => ?_
  refine Spec.bind (hN.is.smul hs.1) fun o ho => ?_
  refine Spec.bind (hM.is.add ho) fun d hd => ?_
  refine Spec.bind hd.frobeniusNorm fun x hx => ?_
  refine (LawfulPivot.eps_zero (F := F) x hx.1).imp fun b hb => hb.trans ?_
  rw [hx.2, hs.2, val_zero, val_one,
    Finset.sum_eq_zero_iff_of_nonneg (fun i _ => Finset.sum_nonneg fun j _ => mul_self_nonneg _)]
  constructor
  · intro h
    ext i j
    have h1 := h i (Finset.mem_range.mpr i.2)
    rw [Finset.sum_eq_zero_iff_of_nonneg fun j _ => mul_self_nonneg _] at h1
    have h2 := mul_self_eq_zero.mp (h1 j (Finset.mem_range.mpr j.2))
    rw [matExt_fin, matExt_fin] at h2
    linarith
  · rintro rfl i _
    refine Finset.sum_eq_zero fun j _ => ?_
    ring

/-- C195. For a singular matrix over an ordered field all three comparisons with the identity fail. -/
theorem C195_singular [LinearOrder K] [IsStrictOrderedRing K] {n : ℕ} (M : Mat F)
    (A : Matrix (Fin n) (Fin n) K) (hM : M.Represents A)
    (hA : ¬ IsUnit A) : Spec (allowed F) (inverseChecks M) (· = (false, false, false)) := by
  have e : inverseChecks M = (do
      let g ← rref M
      let c ← g.b.epsilonEquals (Mat.identity M.rows)
      let pa ← g.p.mul M
      let c₁ ← pa.epsilonEquals (Mat.identity M.rows)
      let ap ← M.mul g.p
      let c₂ ← ap.epsilonEquals (Mat.identity M.rows)
      pure (c, c₁, c₂)) := by
    unfold inverseChecks rref
    simp only [bind_assoc]
  rw [e, hM.rows]
  have h1 := C51_identity (F := F) (K := K) n hM.rows_lt hM.len_lt
  refine (C62_rref M A hM hM.len_lt).bind ?_
  rintro g ⟨P, B, k, piv, hP, hB, -, hu, hPA, hred⟩
  have hne : P * A ≠ 1 := fun h => hA (IsUnit.of_mul_eq_one_right _ h)
  have hne' : A * P ≠ 1 := fun h => hA (IsUnit.of_mul_eq_one _ h)
  have hf : ∀ {c : Bool} {p : Prop}, ¬ p → (c = true ↔ p) → c = false := by
    intro c p hp hc
    cases c
    · rfl
    · exact absurd (hc.mp rfl) hp
  refine (Mat.Represents.epsilonEquals_iff hB h1).bind fun c hc => ?_
  obtain rfl := hf (hPA ▸ hne) hc
  refine (C52_mul _ _ _ _ hP hM hM.len_lt).bind fun pa hpa => ?_
  refine (Mat.Represents.epsilonEquals_iff hpa h1).bind fun c hc => ?_
  obtain rfl := hf hne hc
  refine (C52_mul _ _ _ _ hM hP hM.len_lt).bind fun ap hap => ?_
  refine (Mat.Represents.epsilonEquals_iff hap h1).bind fun c hc => ?_
  obtain rfl := hf hne' hc
  rfl

end

/-! ## From the debug build to the release build, and to exact runs of floats -/

section
variable {F : Type} {d : RField F} {o : Ops F} (h : OpsRefine d o) {e e' : EpsilonEquality F}
  (he : ∀ x y, Refines (e.epsilonEquals x y) (e'.epsilonEquals x y)) {s s' : StabilityCmp F}
  (hs : ∀ x y, Refines (s.stabilityCmp x y) (s'.stabilityCmp x y))
include h he hs

theorem luChecks_refines (M : Mat F) :
    Refines (@luChecks F d e s M) (@luChecks F (d.withOps o) e' s' M) := by
  unfold luChecks
  exact (Mat.lu_refines h he hs _).bind fun _ => (Mat.mul_refines h _ _).bind fun _ =>
    (Mat.mul_refines h _ _).bind fun _ => (Mat.epsilonEquals_refines h he _ _).bind fun _ =>
    (Mat.transpose_refines h _).bind fun _ => (Mat.mul_refines h _ _).bind fun _ =>
    (Mat.mul_refines h _ _).bind fun _ => (Mat.epsilonEquals_refines h he _ _).bind fun _ =>
    (Mat.isLowerTriangular_refines h _).bind fun _ => (Mat.isUpperTriangular_refines h _).bind fun _ =>
    Refines.refl _

theorem formChecks_refines (M : Mat F) :
    Refines (@formChecks F d e s M) (@formChecks F (d.withOps o) e' s' M) := by
  unfold formChecks
  exact (Mat.rowEchelon_refines h he hs _).bind fun _ => (Mat.mul_refines h _ _).bind fun _ =>
    (Mat.epsilonEquals_refines h he _ _).bind fun _ => (Form.toRref_refines h he _).bind fun _ =>
    (Mat.mul_refines h _ _).bind fun _ => (Mat.epsilonEquals_refines h he _ _).bind fun _ => Refines.refl _

theorem kernelChecks_refines (M : Mat F) :
    Refines (@kernelChecks F d e s M) (@kernelChecks F (d.withOps o) e' s' M) := by
  unfold kernelChecks
  exact (Mat.rowEchelon_refines h he hs _).bind fun _ => (Form.toRref_refines h he _).bind fun _ =>
    (Form.computeKernel_refines h he _).bind fun _ => Refines.mapM (fun _ =>
    (Mat.mul_refines h _ _).bind fun _ => Mat.epsilonEquals_refines h he _ _) _

theorem inverseChecks_refines (M : Mat F) :
    Refines (@inverseChecks F d e s M) (@inverseChecks F (d.withOps o) e' s' M) := by
  unfold inverseChecks
  exact (Mat.rowEchelon_refines h he hs _).bind fun _ => (Form.toRref_refines h he _).bind fun _ =>
    (Mat.epsilonEquals_refines h he _ _).bind fun _ => (Mat.mul_refines h _ _).bind fun _ =>
    (Mat.epsilonEquals_refines h he _ _).bind fun _ => (Mat.mul_refines h _ _).bind fun _ =>
    (Mat.epsilonEquals_refines h he _ _).bind fun _ => Refines.refl _

end

/-- C195 for `Rational` in the release build: wherever the debug build finishes, the release build finds all
checks true as well. -/
theorem C195_release {n m : ℕ} (M : Mat Rational) (A : Matrix (Fin n) (Fin m) ℚ)
    (hn : n * n < 18446744073709551616) :
    letI D := Rational.field .debug
    letI := Rational.lawful
    letI SD := Rational.stability .debug
    letI SR := Rational.stability .release
    M.Represents A →
    (∀ c, @luChecks _ D _ SD M = .ok c → @luChecks _ (Rational.field .release) _ SR M = .ok (true, true, true, true)) ∧
    (∀ c, @formChecks _ D _ SD M = .ok c → @formChecks _ (Rational.field .release) _ SR M = .ok (true, true)) ∧
    ∀ c, @kernelChecks _ D _ SD M = .ok c →
      @kernelChecks _ (Rational.field .release) _ SR M = .ok (List.replicate (m - A.rank) true) := by
  let _ := Rational.field .debug
  let _ := Rational.stability .debug
  let _ := Rational.lawful
  have _ := Rational.lawfulPivot
  intro hM
  have h := releaseOps_refine
  have he : ∀ x y, Refines (Rational.epsilonEquality.epsilonEquals x y)
    (Rational.epsilonEquality.epsilonEquals x y) := fun _ _ => Refines.refl _
  have hs := Rational.stabilityCmp_refines
  refine ⟨fun c hc => ?_, fun c hc => ?_, fun c hc => ?_⟩
  · obtain rfl := (C195_lu M A hM hn).of_ok hc
    exact luChecks_refines (s := Rational.stability .debug) (s' := Rational.stability .release) h he hs M _ hc
  · obtain rfl := (C195_form M A hM hn).of_ok hc
    exact formChecks_refines (s := Rational.stability .debug) (s' := Rational.stability .release) h he hs M _ hc
  · obtain rfl := (C195_kernel M A hM hn).of_ok hc
    exact kernelChecks_refines (s := Rational.stability .debug) (s' := Rational.stability .release) h he hs M _ hc

/-- The checks on a matrix that needs a row exchange, and on an invertible and a singular one. -/
example :
    letI := Rational.field .debug
    letI := Rational.stability .debug
    luChecks (ratMat 2 3 [0, 2, 1, 3, 1, 4]) = .ok (true, true, true, true) ∧
    formChecks (ratMat 2 3 [0, 2, 1, 3, 1, 4]) = .ok (true, true) ∧
    kernelChecks (ratMat 2 3 [0, 2, 1, 3, 1, 4]) = .ok [true] ∧
    inverseChecks (ratMat 2 2 [0, 2, 3, 1]) = .ok (true, true, true) ∧
    inverseChecks (ratMat 2 2 [1, 2, 2, 4]) = .ok (false, false, false) := by
  decide +kernel

example : letI := Rational.field .debug
    letI := Rational.lawful
    ∃ A : Matrix (Fin 2) (Fin 3) ℚ, (ratMat 2 3 [0, 2, 1, 3, 1, 4]).Represents A :=
  ⟨_, ratMat_represents 2 3 _ rfl (by decide) (by decide) (by decide)⟩

/-! ## C196: floats -/

namespace Flt
variable [Fmt]

/-- C196 is false: for the row `3, 7·2^40` the documented `(p * self).epsilon_equals(l * u)` and
`self.epsilon_equals(p.transpose() * l * u)` are false, in `f32` and in `f64`, in both builds; for a matrix of
two rows `(p * original).epsilon_equals(b)` is false for the reduced form; and for another one the matrix times
the vector of the basis of the kernel is not `epsilon_equals` to zero. -/
theorem C196_refuted :
    letI powi : Flt → Int → Flt := fun _ _ => nan
    ∀ b, letI := field b powi
      luChecks (intMat 1 2 [3, 7 * 2 ^ 40]) = .ok (false, false, true, true) ∧
      formChecks (intMat 2 2 [3, 7 * 2 ^ 40, 1, 5 * 2 ^ 30]) = .ok (true, false) ∧
      kernelChecks (intMat 2 3 [3, 7, 7 * 2 ^ 40, 1, 5, 5 * 2 ^ 30]) = .ok [false] := by
  intro b
  cases b <;> fmt_decide

/-- C196 where no operation rounds: all checks are true.  Missing: runs with rounding, where it is false
(`C196_refuted`). -/
theorem C196_exact_partial {n m : ℕ} (b : Build) (powi : Flt → Int → Flt) (M : Mat Flt)
    (A : Matrix (Fin n) (Fin m) ℚ) (hn : n * n < 18446744073709551616) :
    letI X := exact powi
    letI := exactF64 powi
    M.Represents A →
    (∀ c, @luChecks _ X exactEps stability M = .ok c →
      @luChecks _ (field b powi) epsilonEquality stability M = .ok (true, true, true, true)) ∧
    (∀ c, @formChecks _ X exactEps stability M = .ok c →
      @formChecks _ (field b powi) epsilonEquality stability M = .ok (true, true)) ∧
    (∀ c, @kernelChecks _ X exactEps stability M = .ok c →
      @kernelChecks _ (field b powi) epsilonEquality stability M = .ok (List.replicate (m - A.rank) true)) := by
  let _ := exact powi
  let _ := exactF64 powi
  let _ := exactEps
  have _ := exactPivot powi
  intro hM
  have hs : ∀ x y : Flt, Refines (Flt.stability.stabilityCmp x y) (Flt.stability.stabilityCmp x y) :=
    fun _ _ => Refines.refl _
  have h := ops_refine (powi := powi) b
  refine ⟨fun c hc => ?_, fun c hc => ?_, fun c hc => ?_⟩
  · obtain rfl := (C195_lu M A hM hn).of_ok hc
    exact luChecks_refines h eps_ref hs M _ hc
  · obtain rfl := (C195_form M A hM hn).of_ok hc
    exact formChecks_refines h eps_ref hs M _ hc
  · obtain rfl := (C195_kernel M A hM hn).of_ok hc
    exact kernelChecks_refines h eps_ref hs M _ hc

/-- `C196_exact_partial` applies. -/
example : letI := exact fun x _ => x
    letI := exactEps
    luChecks (intMat 3 3 [2, 1, 0, 4, 4, 4, 1, 1, 1]) = .ok (true, true, true, true) ∧
    formChecks (intMat 3 3 [2, 1, 0, 4, 4, 4, 1, 1, 1]) = .ok (true, true) ∧
    kernelChecks (intMat 3 3 [2, 1, 0, 4, 4, 4, 1, 1, 1]) = .ok [true] := by fmt_decide

end Flt
end Verif
