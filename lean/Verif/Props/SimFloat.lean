import Verif.Props.Simulate
import Verif.Props.Pure
import Verif.Props.Endless

/-!
# C189: a computation over `f32` and `f64` goes wrong only where an operation rounds

`Flt.exact` is the arithmetic of `f32` and `f64` in which an operation whose result is not exact ends
with the panic `inexact`.  C108 says that what a run over `Flt.exact` returns, the run over `f32` and
`f64` returns.  Here: also the panics, and the runs without end, are the same.
-/

set_option linter.unusedSectionVars false

namespace Verif
open Res LawfulRField LinAlg Computer MvPolynomial

namespace Res
variable {α : Type u} {E E' : Panic → Prop}

/-- If the first run has the property and ends with none of the panics of `E'`, so does the second. -/
theorem Sim.spec {x y : Res α} {P : α → Prop} (h : Sim E' x y) (hx : Spec E x P)
    (hE : ∀ p, E p → ¬ E' p) : Spec E y P := by
  rcases h with rfl | ⟨p, rfl, hp⟩
  · exact hx
  · exact absurd hp (hE p hx)

theorem Sim.trans {x y z : Res α} (h : Sim E x y) (h' : Sim E' y z) :
    Sim (fun p => E p ∨ E' p) x z := by
  rcases h with rfl | ⟨p, rfl, hp⟩
  · exact h'.mono fun p hp => Or.inr hp
  · exact Or.inr ⟨p, rfl, Or.inl hp⟩

end Res

namespace Flt
open Fmt
variable [Fmt] (powi : Flt → Int → Flt)

/-- The panics of the integer operations of a run over floating point numbers. -/
def IndexOverflow (p : Panic) : Prop := p = .overflowU8 ∨ p = .overflowUsize

theorem chk_sim (r : Flt) (v : ℚ) : Sim (· = inexact) (chk r v) (.ok r) := by
  unfold chk
  split
  · exact Sim.refl _
  · exact Or.inr ⟨_, rfl, rfl⟩

theorem exact_sim : OpsSim (· = inexact) (exact powi) (plainOps .debug powi) where
  build := Or.inl rfl
  add _ _ := chk_sim _ _
  sub _ _ := chk_sim _ _
  neg _ := chk_sim _ _
  mul _ _ := chk_sim _ _
  div _ _ := chk_sim _ _
  inv _ := chk_sim _ _
  powi32 _ _ := chk_sim _ _
  sum l l' h := by
    have key : ∀ c, Sim (· = inexact)
        (l.foldlM (fun acc y => do let y ← y; chk (add acc y) (acc.rat + y.rat)) c)
        (l'.foldlM (fun acc y => do let y ← y; Res.ok (add acc y)) c) := by
      induction h with
      | nil => intro c; exact Sim.refl _
      | cons hr h ih =>
        intro c
        rw [List.foldlM_cons, List.foldlM_cons]
        exact (hr.bind fun y => chk_sim _ _).bind fun c => ih c
    exact key _

theorem exactEps_sim (x y : Flt) : Sim (· = inexact) (exactEps.epsilonEquals x y)
    (Flt.epsilonEquality.epsilonEquals x y) := by
  change Sim _ (if epsilonEquals x y = decide (x.value = y.value) then
    Res.ok (epsilonEquals x y) else .panic inexact) _
  split
  · exact Sim.refl _
  · exact Or.inr ⟨_, rfl, rfl⟩

theorem release_sim : OpsSim IndexOverflow (field .debug powi) (plainOps .release powi) where
  build := Or.inr ⟨rfl, Or.inl rfl, Or.inr rfl⟩
  add _ _ := Sim.refl _
  sub _ _ := Sim.refl _
  neg _ := Sim.refl _
  mul _ _ := Sim.refl _
  div _ _ := Sim.refl _
  inv _ := Sim.refl _
  powi32 _ _ := Sim.refl _
  sum l l' h := by
    have key : ∀ c, Sim IndexOverflow
        (l.foldlM (fun acc y => do let y ← y; Res.ok (add acc y)) c)
        (l'.foldlM (fun acc y => do let y ← y; Res.ok (add acc y)) c) := by
      induction h with
      | nil => intro c; exact Sim.refl _
      | cons hr h ih =>
        intro c
        rw [List.foldlM_cons, List.foldlM_cons]
        exact (hr.bind fun y => Sim.refl _).bind fun c => ih c
    exact key _

/-- C188 for polynomials over `f32` and `f64`. -/
theorem C188_poly (k : OrdKind) (p q : Poly Flt) (c : Flt) (x : List Flt) (gens : List (Poly Flt)) :
    letI D := field .debug powi
    letI R := field .release powi
    Sim IndexOverflow (@Poly.eval _ D p x) (@Poly.eval _ R p x) ∧
    Sim IndexOverflow (@Poly.divCoef _ D p c) (@Poly.divCoef _ R p c) ∧
    Sim IndexOverflow (@Poly.add _ D p q) (@Poly.add _ R p q) ∧
    Sim IndexOverflow (@Poly.sub _ D p q) (@Poly.sub _ R p q) ∧
    Sim IndexOverflow (@Poly.mul _ D p q) (@Poly.mul _ R p q) ∧
    Sim IndexOverflow (@divide _ D (k.order .debug) p gens) (@divide _ R (k.order .release) p gens) ∧
    Sim IndexOverflow (@tryReduce _ D (k.order .debug) p q) (@tryReduce _ R (k.order .release) p q) ∧
    Sim IndexOverflow (@buchbergerCriterion _ D (k.order .debug) gens)
      (@buchbergerCriterion _ R (k.order .release) gens) ∧
    Sim IndexOverflow (@buchbergerAlgorithm _ D (k.order .debug) gens)
      (@buchbergerAlgorithm _ R (k.order .release) gens) :=
  have h := release_sim powi
  have hO := OrdKind.sim h.build k
  ⟨Poly.eval_sim h _ _, Poly.divCoef_sim h _ _, Poly.add_sim h _ _, Poly.sub_sim h _ _,
    Poly.mul_sim h _ _, divide_sim h hO _ _, tryReduce_sim h hO _ _, buchbergerCriterion_sim h hO _,
    buchbergerAlgorithm_sim h hO _⟩

/-- C188 for matrices and cones over `f32` and `f64`. -/
theorem C188_mat (M N : Mat Flt) (f : Form Flt) (order : List Nat → List Nat) (gens : List (Mat Flt)) :
    letI D := field .debug powi
    letI R := field .release powi
    Sim IndexOverflow (@Mat.transpose _ D M) (@Mat.transpose _ R M) ∧
    Sim IndexOverflow (@Mat.add _ D M N) (@Mat.add _ R M N) ∧
    Sim IndexOverflow (@Mat.mul _ D M N) (@Mat.mul _ R M N) ∧
    Sim IndexOverflow (@Mat.dot _ D M N) (@Mat.dot _ R M N) ∧
    Sim IndexOverflow (@Mat.lu _ D epsilonEquality stability M) (@Mat.lu _ R epsilonEquality stability M) ∧
    Sim IndexOverflow (@Mat.rowEchelon _ D epsilonEquality stability M)
      (@Mat.rowEchelon _ R epsilonEquality stability M) ∧
    Sim IndexOverflow (@Form.toRref _ D epsilonEquality f) (@Form.toRref _ R epsilonEquality f) ∧
    Sim IndexOverflow (@Form.rank _ D epsilonEquality f) (@Form.rank _ R epsilonEquality f) ∧
    Sim IndexOverflow (@Form.nullity _ D epsilonEquality f) (@Form.nullity _ R epsilonEquality f) ∧
    Sim IndexOverflow (@Form.computeKernel _ D epsilonEquality f)
      (@Form.computeKernel _ R epsilonEquality f) ∧
    Sim IndexOverflow (@Form.computeRange _ D epsilonEquality order f)
      (@Form.computeRange _ R epsilonEquality order f) ∧
    Sim IndexOverflow (@Cone.new _ D epsilonEquality stability fieldOrd gens)
      (@Cone.new _ R epsilonEquality stability fieldOrd gens) :=
  have h := release_sim powi
  have he := fun _ _ => Sim.refl _
  have hs := fun _ _ => Sim.refl _
  ⟨Mat.transpose_sim h _, Mat.add_sim h _ _, Mat.mul_sim h _ _, Mat.dot_sim h _ _,
    Mat.lu_sim h he hs _, Mat.rowEchelon_sim h he hs _, Form.toRref_sim h he _, Form.rank_sim h he _,
    Form.nullity_sim h he _, Form.computeKernel_sim h he _, Form.computeRange_sim h he _ _,
    Cone.new_sim h he hs (fun _ _ => Sim.refl _) _⟩

/-- C189 for polynomials: the run that checks every operation is the real run (of a debug build), with
the same value, the same panic or no end, unless it finds an operation that is not exact. -/
theorem C189_poly (k : OrdKind) (p q : Poly Flt) (c : Flt) (x : List Flt) (gens : List (Poly Flt)) :
    letI X := exact powi
    letI D := field .debug powi
    Sim (· = inexact) (@Poly.eval _ X p x) (@Poly.eval _ D p x) ∧
    Sim (· = inexact) (@Poly.divCoef _ X p c) (@Poly.divCoef _ D p c) ∧
    Sim (· = inexact) (@Poly.add _ X p q) (@Poly.add _ D p q) ∧
    Sim (· = inexact) (@Poly.sub _ X p q) (@Poly.sub _ D p q) ∧
    Sim (· = inexact) (@Poly.mul _ X p q) (@Poly.mul _ D p q) ∧
    Sim (· = inexact) (@divide _ X (k.order .debug) p gens) (@divide _ D (k.order .debug) p gens) ∧
    Sim (· = inexact) (@tryReduce _ X (k.order .debug) p q) (@tryReduce _ D (k.order .debug) p q) ∧
    Sim (· = inexact) (@buchbergerCriterion _ X (k.order .debug) gens)
      (@buchbergerCriterion _ D (k.order .debug) gens) ∧
    Sim (· = inexact) (@buchbergerAlgorithm _ X (k.order .debug) gens)
      (@buchbergerAlgorithm _ D (k.order .debug) gens) :=
  have h := exact_sim powi
  have hO := OrdKind.sim h.build k
  ⟨Poly.eval_sim h _ _, Poly.divCoef_sim h _ _, Poly.add_sim h _ _, Poly.sub_sim h _ _,
    Poly.mul_sim h _ _, divide_sim h hO _ _, tryReduce_sim h hO _ _, buchbergerCriterion_sim h hO _,
    buchbergerAlgorithm_sim h hO _⟩

/-- C189 for matrices and cones; here a comparison of `epsilon_equals` that differs from equality counts as
not exact. -/
theorem C189_mat (M N : Mat Flt) (f : Form Flt) (order : List Nat → List Nat) (gens : List (Mat Flt)) :
    letI X := exact powi
    letI D := field .debug powi
    Sim (· = inexact) (@Mat.transpose _ X M) (@Mat.transpose _ D M) ∧
    Sim (· = inexact) (@Mat.add _ X M N) (@Mat.add _ D M N) ∧
    Sim (· = inexact) (@Mat.mul _ X M N) (@Mat.mul _ D M N) ∧
    Sim (· = inexact) (@Mat.dot _ X M N) (@Mat.dot _ D M N) ∧
    Sim (· = inexact) (@Mat.lu _ X exactEps stability M) (@Mat.lu _ D epsilonEquality stability M) ∧
    Sim (· = inexact) (@Mat.rowEchelon _ X exactEps stability M)
      (@Mat.rowEchelon _ D epsilonEquality stability M) ∧
    Sim (· = inexact) (@Form.toRref _ X exactEps f) (@Form.toRref _ D epsilonEquality f) ∧
    Sim (· = inexact) (@Form.rank _ X exactEps f) (@Form.rank _ D epsilonEquality f) ∧
    Sim (· = inexact) (@Form.nullity _ X exactEps f) (@Form.nullity _ D epsilonEquality f) ∧
    Sim (· = inexact) (@Form.computeKernel _ X exactEps f) (@Form.computeKernel _ D epsilonEquality f) ∧
    Sim (· = inexact) (@Form.computeRange _ X exactEps order f)
      (@Form.computeRange _ D epsilonEquality order f) ∧
    Sim (· = inexact) (@Cone.new _ X exactEps stability fieldOrd gens)
      (@Cone.new _ D epsilonEquality stability fieldOrd gens) :=
  have h := exact_sim powi
  have he := exactEps_sim
  have hs := fun _ _ => Sim.refl _
  ⟨Mat.transpose_sim h _, Mat.add_sim h _ _, Mat.mul_sim h _ _, Mat.dot_sim h _ _,
    Mat.lu_sim h he hs _, Mat.rowEchelon_sim h he hs _, Form.toRref_sim h he _, Form.rank_sim h he _,
    Form.nullity_sim h he _, Form.computeKernel_sim h he _, Form.computeRange_sim h he _ _,
    Cone.new_sim h he hs (fun _ _ => Sim.refl _) _⟩

/-- C189, what it means for division (debug build): either some operation is not exact, or the run stops at
an exponent above 255, or it returns the quotients and the remainder of the division over `ℚ`. -/
theorem C189_divide {n : ℕ} (k : OrdKind) (f : Poly Flt) (divs : List (Poly Flt)) :
    letI X := exact powi
    letI := exactF64 powi
    Poly.Clean (Fin n) f → (∀ g ∈ divs, Poly.Clean (Fin n) g) →
    @divide _ X (k.order .debug) f divs = .panic inexact ∨
    Spec (· = .overflowU8) (@divide _ (field .debug powi) (k.order .debug) f divs) (fun x =>
      x.2.length = divs.length ∧
      IsDivision (k.mathlib n) (fun i : Fin divs.length => Poly.den (Fin n) (divs.get i))
        (Poly.den (Fin n) f) (fun i => Poly.den (Fin n) (x.2.getD i [])) (Poly.den (Fin n) x.1)) := by
  let _ := exact powi
  let _ := exactF64 powi
  intro hf hg
  have hs := C120_determinate (k.implements n) f divs hf hg
  rcases (C189_poly powi k f [] zero [] divs).2.2.2.2.2.1 with h | ⟨p, h, rfl⟩
  · refine or_iff_not_imp_left.mpr fun hne => ?_
    rw [← h]
    cases hx : @divide _ (exact powi) (k.order .debug) f divs with
    | ok x => exact hs.of_ok hx
    | panic p =>
      rw [hx] at hs hne
      rcases hs with hs | hs
      · exact absurd (congrArg Res.panic hs) hne
      · exact hs
    | diverge => exact absurd hx hs.ne_diverge
  · exact Or.inl h

/-- C189, what it means for the algorithm of Buchberger (debug build): either some operation is not exact,
or the run stops at an exponent above 255, or it returns the reduced Gröbner basis over `ℚ`.  In
particular a run without end rounds somewhere. -/
theorem C189_buchberger {n : ℕ} (k : OrdKind) (gens : List (Poly Flt)) :
    letI X := exact powi
    letI := exactF64 powi
    (∀ g ∈ gens, Poly.Clean (Fin n) g ∧ Poly.den (Fin n) g ≠ 0) →
    @buchbergerAlgorithm _ X (k.order .debug) gens = .panic inexact ∨
    Spec (· = .overflowU8) (@buchbergerAlgorithm _ (field .debug powi) (k.order .debug) gens) (fun G =>
      IsGroebner (k.mathlib n) (Ideal.span (dens (Fin n) gens)) (dens (Fin n) G) ∧
      LeadsIncomparable (k.mathlib n) G ∧ IsInterReduced (k.mathlib n) (dens (Fin n) G)) := by
  let _ := exact powi
  let _ := exactF64 powi
  intro hg
  have hs := algorithm_spec (k.implements n) gens hg (fun _ => True) trivial fun _ _ => trivial
  rcases (C189_poly powi k [] [] zero [] gens).2.2.2.2.2.2.2.2 with h | ⟨p, h, rfl⟩
  · refine or_iff_not_imp_left.mpr fun hne => ?_
    rw [← h]
    cases hx : @buchbergerAlgorithm _ (exact powi) (k.order .debug) gens with
    | ok x => exact ⟨(hs.of_ok hx).2.1, (hs.of_ok hx).2.2.2⟩
    | panic p =>
      rw [hx] at hs hne
      rcases hs with hs | hs
      · exact absurd (congrArg Res.panic hs) hne
      · exact hs
    | diverge => exact absurd hx hs.ne_diverge
  · exact Or.inl h

theorem overflowU8_ne_inexact : (Panic.overflowU8 : Panic) ≠ inexact := by
  rw [inexact]; exact fun h => by cases h

/-- C189, for generators `± x^a` and `± (x^a - x^b)` no operation rounds: the real run over `f32` or `f64`
(debug build) ends, at an exponent above 255 or with the reduced Gröbner basis. -/
theorem C189_binomials {n : ℕ} (k : OrdKind) (gens : List (Poly Flt)) :
    letI := exact powi
    letI := exactF64 powi
    (∀ g ∈ gens, Poly.Clean (Fin n) g ∧ IsPure g) →
    Spec (· = .overflowU8) (@buchbergerAlgorithm _ (field .debug powi) (k.order .debug) gens) (fun G =>
      (∀ g ∈ G, Poly.Clean (Fin n) g ∧ IsPure g) ∧
      @buchbergerAlgorithm _ (field .release powi) (k.order .release) gens = .ok G ∧
      IsGroebner (k.mathlib n) (Ideal.span (dens (Fin n) gens)) (dens (Fin n) G) ∧
      LeadsIncomparable (k.mathlib n) G ∧ IsInterReduced (k.mathlib n) (dens (Fin n) G)) := by
  let _ := exact powi
  let _ := exactF64 powi
  intro hg
  exact (C189_poly powi k [] [] zero [] gens).2.2.2.2.2.2.2.2.spec (C187_buchberger .release powi k gens hg)
    fun p hp h => overflowU8_ne_inexact (hp.symm.trans h)

/-- All three cases occur.  Squaring `x^128` ends with the same panic in the checked and the real run
(debug build), and returns without overflow checks. -/
example : letI p : Poly Flt := [⟨ofInt 1, [128]⟩]
    letI powi : Flt → Int → Flt := fun _ _ => nan
    @Poly.mul _ (exact powi) p p = .panic .overflowU8 ∧
    @Poly.mul _ (field .debug powi) p p = .panic .overflowU8 ∧
    @Poly.mul _ (field .release powi) p p = .ok [⟨ofInt 1, [0]⟩] := by
  fmt_decide

/-- Dividing by 3 is not exact; the real run returns. -/
example : letI p : Poly Flt := [⟨ofInt 1, [1]⟩]
    letI powi : Flt → Int → Flt := fun _ _ => nan
    @Poly.divCoef _ (exact powi) p (ofInt 3) = .panic inexact ∧
    @Poly.divCoef _ (field .debug powi) p (ofInt 3) = .ok [⟨recip (ofInt 3), [1]⟩] := by
  fmt_decide

/-- Generators that satisfy the hypothesis of `C189_binomials`. -/
example : ∀ g ∈ [fG₂], @Poly.Clean Flt (exact powi) ℚ _ (exactF64 powi) (Fin 2) _ g ∧ IsPure g := by
  intro g hg
  rw [List.mem_singleton.mp hg]
  have h : (ofInt 1).value = some 1 ∧ (ofInt (-1)).value = some (-1) := by fmt_decide
  exact ⟨sampleOk.clean powi (by fmt_decide), 1, Or.inl rfl, Or.inr ⟨_, _, rfl, h.1, h.2⟩⟩

end Flt
end Verif
