import Verif.Props.IdealSum
import Verif.Props.IdealOps
import Verif.Props.PolyMap
import Verif.Proofs.Run
import Mathlib.Algebra.MvPolynomial.Funext
import Mathlib.LinearAlgebra.Dimension.Constructions

/-!
# Property C220: polynomials that vanish at given points

The ideal of finitely many points, by intersecting the ideals of the single points (C135), and the
polynomials that vanish on the image of a polynomial map (C143).
-/

namespace Verif
open Res MvPolynomial LawfulRField

section
variable {F : Type} [RField F]

/-- The polynomials `x_i - a_i` for `i < k`. -/
def idealOfPoint (k : ℕ) (a : List F) : Res (List (Poly F)) :=
  (List.range k).mapM fun i => Poly.sub (Poly.var i 1) (Poly.ofCoef (a.getD i RField.zero))

/-- Generators of the polynomials in the first `k` variables that vanish at all the points. -/
def idealOfPoints (k : ℕ) : List (List F) → Res (List (Poly F))
  | [] => pure [Poly.one]
  | a :: pts => do
    let H ← idealOfPoints k pts
    let A ← idealOfPoint k a
    intersect k A H

/-- A basis of the ideal of the points, and the remainder of `f` on division by it. -/
def interpolate (O : MOrder) (k : ℕ) (pts : List (List F)) (f : Poly F) : Res (List (Poly F) × Poly F) := do
  let H ← idealOfPoints k pts
  let G ← Computer.buchbergerAlgorithm O H
  let (r, _) ← Computer.divide O f G
  pure (G, r)

end

namespace Points
variable {K : Type} [Field K] {k : ℕ}

theorem mem_point (a : Fin k → K) (p : MvPolynomial (Fin k) K) :
    p ∈ Ideal.span (Set.range fun i => X i - C (a i)) ↔ eval a p = 0 := by
  have key : ∀ p : MvPolynomial (Fin k) K,
      p - C (eval a p) ∈ Ideal.span (Set.range fun i => X i - C (a i)) := by
    intro p
    induction p using MvPolynomial.induction_on with
    | C c => rw [eval_C, sub_self]; exact Ideal.zero_mem _
    | add p q hp hq =>
      rw [map_add, map_add, add_sub_add_comm]
      exact Ideal.add_mem _ hp hq
    | mul_X p i hp =>
      have : p * X i - C (eval a (p * X i)) =
          (p - C (eval a p)) * X i + C (eval a p) * (X i - C (a i)) := by
        rw [map_mul, eval_X, map_mul]; ring
      rw [this]
      exact Ideal.add_mem _ (Ideal.mul_mem_right _ _ hp)
        (Ideal.mul_mem_left _ _ (Ideal.subset_span ⟨i, rfl⟩))
  constructor
  · intro h
    have hle : Ideal.span (Set.range fun i => X i - C (a i)) ≤ RingHom.ker (eval a) := by
      rw [Ideal.span_le]
      rintro _ ⟨i, rfl⟩
      change eval a _ = 0
      rw [map_sub, eval_X, eval_C, sub_self]
    exact hle h
  · intro h
    have := key p
    rwa [h, map_zero, sub_zero] at this

/-- A polynomial that is one at `a` and zero at the other points of a finite set. -/
theorem exists_indicator [DecidableEq (Fin k → K)] (S : Finset (Fin k → K)) (a : Fin k → K) :
    ∃ p : MvPolynomial (Fin k) K, eval a p = 1 ∧ ∀ b ∈ S, b ≠ a → eval b p = 0 := by
  induction S using Finset.induction_on with
  | empty => exact ⟨1, map_one _, fun b hb => absurd hb (Finset.notMem_empty b)⟩
  | insert c S _ ih =>
    obtain ⟨p, hp, hS⟩ := ih
    by_cases hc : c = a
    · refine ⟨p, hp, fun b hb hba => ?_⟩
      rcases Finset.mem_insert.mp hb with rfl | hb
      · exact absurd hc hba
      · exact hS b hb hba
    · obtain ⟨i, hi⟩ := Function.ne_iff.mp hc
      have hne : a i - c i ≠ 0 := sub_ne_zero.mpr (Ne.symm hi)
      refine ⟨C (a i - c i)⁻¹ * (X i - C (c i)) * p, ?_, fun b hb hba => ?_⟩
      · rw [map_mul, map_mul, map_sub, eval_C, eval_X, eval_C, hp, mul_one, inv_mul_cancel₀ hne]
      · rcases Finset.mem_insert.mp hb with rfl | hb
        · rw [map_mul, map_mul, map_sub, eval_C, eval_X, eval_C, sub_self, mul_zero, zero_mul]
        · rw [map_mul, hS b hb hba, mul_zero]

/-- Interpolation, in mathematics. -/
theorem exists_interpolant (S : Finset (Fin k → K)) (v : (Fin k → K) → K) :
    ∃ p : MvPolynomial (Fin k) K, ∀ a ∈ S, eval a p = v a := by
  classical
  choose p hp hS using exists_indicator S
  refine ⟨∑ a ∈ S, C (v a) * p a, fun b hb => ?_⟩
  rw [map_sum, Finset.sum_eq_single b]
  · rw [map_mul, eval_C, hp, mul_one]
  · intro a _ hab
    rw [map_mul, hS a b hb (Ne.symm hab), mul_zero]
  · exact fun h => absurd hb h

end Points

section
variable {F : Type} [RField F] {K : Type} [Field K] [LawfulRField F K] {k : ℕ}

/-- The point with the coordinates `a`. -/
def pointOf (K : Type) [Field K] [LawfulRField F K] (k : ℕ) (a : List F) : Fin k → K :=
  fun i => val (a.getD i.val RField.zero)

theorem idealOfPoint_spec (a : List F) (ha : ∀ c ∈ a, wf c) :
    Spec (PolyPanic F) (idealOfPoint k a) (fun A =>
      (∀ g ∈ A, Poly.Clean (Fin k) g ∧ Poly.den (Fin k) g ≠ (0 : MvPolynomial (Fin k) K)) ∧
      ∀ p : MvPolynomial (Fin k) K, p ∈ Ideal.span (dens (Fin k) A) ↔ eval (pointOf K k a) p = 0) := by
  have hwf : ∀ i, wf (a.getD i RField.zero) := by
    intro i
    rw [List.getD_eq_getElem?_getD]
    rcases h : a[i]? with _ | c
    · exact wf_zero
    · exact ha c (List.mem_of_getElem? h)
  refine (mapM_spec (P := fun i r => ∃ h : i < k, Poly.Clean (Fin k) r ∧
    (Poly.den (Fin k) r : MvPolynomial (Fin k) K) = X ⟨i, h⟩ - C (pointOf K k a ⟨i, h⟩))
    fun i hi => ?_).imp fun A hA => ?_
  · have hik := List.mem_range.mp hi
    obtain ⟨h1, h2⟩ := var_clean_den (F := F) (K := K) (⟨i, hik⟩ : Fin k)
    obtain ⟨h3, h4⟩ := Poly.ofCoef_spec (σ := Fin k) (K := K) (hwf i)
    refine (Poly.sub_spec h1 h3).mono polyPanic_allowed fun r hr => ⟨hik, hr.1, ?_⟩
    rw [hr.2, h2, h4]
    rfl
  · have hden : (dens (Fin k) A : Set (MvPolynomial (Fin k) K)) =
        Set.range fun i => X i - C (pointOf K k a i) := by
      ext x
      constructor
      · rintro ⟨r, hr, rfl⟩
        obtain ⟨i, -, h, -, hd⟩ := forall₂_mem_right hA hr
        exact ⟨⟨i, h⟩, hd.symm⟩
      · rintro ⟨i, rfl⟩
        obtain ⟨r, hr, h, -, hd⟩ := forall₂_mem_right hA.flip (List.mem_range.mpr i.2)
        exact ⟨r, hr, hd.symm⟩
    refine ⟨fun g hg => ?_, fun p => ?_⟩
    · obtain ⟨i, -, h, hc, hd⟩ := forall₂_mem_right hA hg
      refine ⟨hc, fun h0 => ?_⟩
      have := congrArg (eval fun _ => pointOf K k a ⟨i, h⟩ + 1) (hd.symm.trans h0)
      rw [map_sub, eval_X, eval_C, map_zero, add_sub_cancel_left] at this
      exact one_ne_zero this
    · rw [hden, Points.mem_point]

/-- C220: the result generates the polynomials that vanish at all the points. -/
theorem C220_points (pts : List (List F)) (hp : ∀ a ∈ pts, ∀ c ∈ a, wf c) :
    Spec (PolyPanic F) (idealOfPoints k pts) (fun H =>
      (∀ g ∈ H, Poly.Clean (Fin k) g ∧ Poly.den (Fin k) g ≠ (0 : MvPolynomial (Fin k) K)) ∧
      ∀ p : MvPolynomial (Fin k) K, p ∈ Ideal.span (dens (Fin k) H) ↔
        ∀ a ∈ pts, eval (pointOf K k a) p = 0) := by
  induction pts with
  | nil =>
    have hone : (Poly.den (Fin k) (Poly.one : Poly F) : MvPolynomial (Fin k) K) = 1 := by
      have e : (Poly.one : Poly F) = [Term.one] := rfl
      rw [e, Poly.den_cons, Poly.den_nil, add_zero, Term.den_one]
    refine ⟨fun g hg => ?_, fun p => ?_⟩
    · rw [List.mem_singleton.mp hg]
      exact ⟨Poly.clean_singleton.mpr Term.one_clean, by rw [hone]; exact one_ne_zero⟩
    · rw [dens_singleton, hone, Ideal.span_singleton_one]
      exact ⟨fun _ a ha => absurd ha List.not_mem_nil, fun _ => trivial⟩
  | cons a pts ih =>
    refine (ih fun b hb => hp b (List.mem_cons_of_mem a hb)).bind fun H hH => ?_
    refine (idealOfPoint_spec a (hp a List.mem_cons_self)).bind fun A hA => ?_
    refine (intersect_spec A H hA.1 hH.1).imp fun J hJ => ⟨hJ.1, fun p => ?_⟩
    rw [hJ.2, Ideal.mem_inf, hA.2, hH.2, List.forall_mem_cons]

/-- What is proved of `interpolate`: the interpolating polynomial and its uniqueness. -/
theorem C220_interpolation {O : MOrder} {m : MonomialOrder (Fin k)} (hO : Implements O m)
    (pts : List (List F)) (hp : ∀ a ∈ pts, ∀ c ∈ a, wf c) (f : Poly F) (hf : Poly.Clean (Fin k) f) :
    Spec (PolyPanic F) (interpolate O k pts f) (fun (G, r) =>
      (∀ e ∈ (Poly.den (Fin k) r : MvPolynomial (Fin k) K).support, ∀ g ∈ G,
        ¬ m.degree (Poly.den (Fin k) g : MvPolynomial (Fin k) K) ≤ e) ∧
      (∀ a ∈ pts, eval (pointOf K k a) (Poly.den (Fin k) r) = eval (pointOf K k a) (Poly.den (Fin k) f)) ∧
      (r = [] ↔ ∀ a ∈ pts, eval (pointOf K k a) (Poly.den (Fin k) f) = 0) ∧
      {e : Fin k →₀ ℕ | ∀ g ∈ G, ¬ m.degree (Poly.den (Fin k) g : MvPolynomial (Fin k) K) ≤ e}.ncard =
        {x | ∃ a ∈ pts, pointOf K k a = x}.ncard ∧
      ∀ v : (Fin k → K) → K, ∃! p : MvPolynomial (Fin k) K,
        (∀ e ∈ p.support, ∀ g ∈ G, ¬ m.degree (Poly.den (Fin k) g : MvPolynomial (Fin k) K) ≤ e) ∧
        ∀ a ∈ pts, eval (pointOf K k a) p = v (pointOf K k a)) := by
  classical
  refine (C220_points pts hp).bind fun H hH => ?_
  refine (algorithm_spec hO H hH.1 (fun _ => True) trivial fun _ _ => trivial).bind fun G hG => ?_
  refine (divide_gens hO.poly polyPanic_allowed (fun g hg => (hG.1 g hg).1) hf).bind ?_
  rintro ⟨r, qs⟩ ⟨hrc, hred, hmem, -⟩
  simp only at hrc hred hmem
  have hI := hG.2.1.span_eq
  rw [hI] at hmem
  have hrs : ∀ e ∈ (Poly.den (Fin k) r : MvPolynomial (Fin k) K).support, e ∈ Standard m G :=
    fun e he g hg => (hred e he).2 _ ⟨g, hg, rfl⟩ (hG.1.den_ne hg)
  have hval : ∀ a ∈ pts, eval (pointOf K k a) (Poly.den (Fin k) r) =
      eval (pointOf K k a) (Poly.den (Fin k) f) := by
    intro a ha
    have := (hH.2 _).mp hmem a ha
    rw [map_sub, sub_eq_zero] at this
    exact this.symm
  have hindep : ∀ p : MvPolynomial (Fin k) K, (∀ e ∈ p.support, e ∈ Standard m G) →
      (∀ a ∈ pts, eval (pointOf K k a) p = 0) → p = 0 := fun p hs h0 =>
    standard_independent hG.2.1 ((hH.2 p).mpr h0) hs
  let S : Finset (Fin k → K) := (pts.map (pointOf K k)).toFinset
  have hS : ∀ x, x ∈ S ↔ ∃ a ∈ pts, pointOf K k a = x := fun x => by
    rw [List.mem_toFinset, List.mem_map]
  refine ⟨hrs, hval, ⟨?_, fun h => ?_⟩, ?_, fun v => ?_⟩
  · rintro rfl a ha
    rw [← hval a ha, Poly.den_nil, map_zero]
  · rw [← Poly.den_eq_zero_iff (K := K) hrc]
    exact hindep _ hrs fun a ha => (hval a ha).trans (h a ha)
  · obtain ⟨hli, hspan⟩ := macaulay hG.1 hG.2.1
    let ev : MvPolynomial (Fin k) K →ₐ[K] (S → K) := AlgHom.pi fun x => aeval x.1
    have hev : ∀ (p : MvPolynomial (Fin k) K) (x : S), ev p x = eval x.1 p := fun p x => by
      exact DFunLike.congr_fun (coe_aeval_eq_eval x.1) p
    have hsurj : Function.Surjective ev := by
      intro v
      obtain ⟨p, hp⟩ := Points.exists_interpolant S fun x => if h : x ∈ S then v ⟨x, h⟩ else 0
      refine ⟨p, funext fun x => ?_⟩
      rw [hev, hp x.1 x.2, dif_pos x.2]
    have hker : RingHom.ker ev = Ideal.span (dens (Fin k) H : Set (MvPolynomial (Fin k) K)) := by
      ext p
      rw [hH.2, RingHom.mem_ker]
      constructor
      · intro h a ha
        have := congrFun h ⟨pointOf K k a, (hS _).mpr ⟨a, ha, rfl⟩⟩
        rwa [hev] at this
      · intro h
        funext x
        obtain ⟨a, ha, hx⟩ := (hS x.1).mp x.2
        rw [hev, ← hx]
        exact h a ha
    have hdim : Module.finrank K (MvPolynomial (Fin k) K ⧸
        Ideal.span (dens (Fin k) H : Set (MvPolynomial (Fin k) K))) = S.card := by
      rw [(Ideal.quotientEquivAlgOfEq K hker.symm).toLinearEquiv.finrank_eq,
        (Ideal.quotientKerAlgEquivOfSurjective hsurj).toLinearEquiv.finrank_eq,
        Module.finrank_fintype_fun_eq_card, Fintype.card_coe]
    have hset : {x | ∃ a ∈ pts, pointOf K k a = x} = (S : Set (Fin k → K)) := by
      ext x
      exact (hS x).symm
    rw [hset, Set.ncard_coe_finset, ← hdim, Module.finrank_eq_nat_card_basis (Module.Basis.mk hli hspan.ge),
      Nat.card_coe_set_eq]
    rfl
  · obtain ⟨q, hq⟩ := Points.exists_interpolant S v
    obtain ⟨p, hpq, hps⟩ := exists_standard hG.1 hG.2.1 q
    have hpv : ∀ a ∈ pts, eval (pointOf K k a) p = v (pointOf K k a) := by
      intro a ha
      have := (hH.2 _).mp hpq a ha
      rw [map_sub, sub_eq_zero] at this
      rw [← this]
      exact hq _ ((hS _).mpr ⟨a, ha, rfl⟩)
    refine ⟨p, ⟨hps, hpv⟩, ?_⟩
    rintro p' ⟨hps', hpv'⟩
    rw [← sub_eq_zero]
    refine hindep _ (fun e he => ?_) fun a ha => by
      rw [map_sub, hpv' a ha, hpv a ha, sub_self]
    rcases Finset.mem_union.mp (support_sub _ _ _ he) with h | h
    · exact hps' e h
    · exact hps e h

/-- C220: over an infinite field the relations between polynomials are the polynomials that vanish on the
image of the map they define. -/
theorem C220_image [Infinite K] {n : ℕ} (fs : List (Poly F)) (hf : ∀ f ∈ fs, Poly.Clean (Fin n) f) :
    Spec (PolyPanic F) (relations n fs) (fun H => ∃ S : Set (MvPolynomial (Fin fs.length) K),
      (dens (Fin (n + fs.length)) H : Set (MvPolynomial (Fin (n + fs.length)) K)) =
        rename (Fin.natAdd n) '' S ∧
      ∀ p : MvPolynomial (Fin fs.length) K, p ∈ Ideal.span S ↔
        ∀ a : Fin n → K, eval (fun j : Fin fs.length => eval a (Poly.den (Fin n) fs[j])) p = 0) := by
  refine (C143_relations fs hf).imp ?_
  rintro H ⟨S, hS, hrel⟩
  refine ⟨S, hS, fun p => ?_⟩
  rw [← hrel, MvPolynomial.funext_iff]
  refine forall_congr' fun a => ?_
  rw [map_zero]
  have : eval a (aeval (fun j : Fin fs.length => (Poly.den (Fin n) fs[j] : MvPolynomial (Fin n) K)) p) =
      eval (fun j : Fin fs.length => eval a (Poly.den (Fin n) fs[j])) p := by
    exact comp_aeval_apply (fun j : Fin fs.length => (Poly.den (Fin n) fs[j] : MvPolynomial (Fin n) K))
      (aeval a) p
  rw [this]

end

/-! ### Examples -/

/-- `y - 2 x` and `x^2 - x` generate the polynomials that vanish at `(0, 0)` and `(1, 2)`. -/
theorem C220_run : letI := Rational.field .debug
    idealOfPoints 2 [[⟨0, 1⟩, ⟨0, 1⟩], [⟨1, 1⟩, ⟨2, 1⟩]] =
      .ok ([[⟨⟨1, 1⟩, [0, 1]⟩, ⟨⟨-2, 1⟩, [1]⟩], [⟨⟨1, 1⟩, [2]⟩, ⟨⟨-1, 1⟩, [1]⟩]] : List (Poly Rational)) := by
  let _ := Rational.field .debug
  have h1 : idealOfPoints 2 [[⟨1, 1⟩, ⟨2, 1⟩]] =
      .ok ([[⟨⟨1, 1⟩, [1]⟩, ⟨⟨-1, 1⟩, []⟩], [⟨⟨1, 1⟩, [0, 1]⟩, ⟨⟨-2, 1⟩, []⟩]] : List (Poly Rational)) := by
    refine bind_eq_ok.mpr ⟨[Poly.one], rfl, bind_eq_ok.mpr
      ⟨[[⟨⟨1, 1⟩, [1]⟩, ⟨⟨-1, 1⟩, []⟩], [⟨⟨1, 1⟩, [0, 1]⟩, ⟨⟨-2, 1⟩, []⟩]], by decide +kernel, ?_⟩⟩
    refine bind_eq_ok.mpr ⟨[[⟨⟨1, 1⟩, [1, 0, 1]⟩, ⟨⟨-1, 1⟩, [0, 0, 1]⟩], [⟨⟨1, 1⟩, [0, 1, 1]⟩, ⟨⟨-2, 1⟩, [0, 0, 1]⟩]],
      by decide +kernel, bind_eq_ok.mpr ⟨[[⟨⟨1, 1⟩, []⟩, ⟨⟨-1, 1⟩, [0, 0, 1]⟩]],
      by decide +kernel, bind_eq_ok.mpr
      ⟨[[⟨⟨1, 1⟩, []⟩, ⟨⟨-1, 1⟩, [0, 0, 1]⟩], [⟨⟨1, 1⟩, [1]⟩, ⟨⟨-1, 1⟩, []⟩],
        [⟨⟨1, 1⟩, [0, 1]⟩, ⟨⟨-2, 1⟩, []⟩]],
        (Computer.buchbergerAlgorithmN_approx 30 _).eq (by decide +kernel) (by simp), by decide +kernel⟩⟩⟩
  refine bind_eq_ok.mpr ⟨_, h1, bind_eq_ok.mpr
    ⟨[[⟨⟨1, 1⟩, [1]⟩], [⟨⟨1, 1⟩, [0, 1]⟩]], by decide +kernel, ?_⟩⟩
  refine bind_eq_ok.mpr ⟨[[⟨⟨1, 1⟩, [1, 0, 1]⟩], [⟨⟨1, 1⟩, [0, 1, 1]⟩]],
      by decide +kernel, bind_eq_ok.mpr ⟨[[⟨⟨1, 1⟩, [1]⟩, ⟨⟨-1, 1⟩, []⟩, ⟨⟨-1, 1⟩, [1, 0, 1]⟩, ⟨⟨1, 1⟩, [0, 0, 1]⟩],
      [⟨⟨1, 1⟩, [0, 1]⟩, ⟨⟨-2, 1⟩, []⟩, ⟨⟨-1, 1⟩, [0, 1, 1]⟩, ⟨⟨2, 1⟩, [0, 0, 1]⟩]],
      by decide +kernel, bind_eq_ok.mpr
    ⟨[[⟨⟨1, 1⟩, [0, 0, 1]⟩, ⟨⟨1, 1⟩, [1]⟩, ⟨⟨-1, 1⟩, []⟩], [⟨⟨1, 1⟩, [0, 1]⟩, ⟨⟨-2, 1⟩, [1]⟩],
      [⟨⟨1, 1⟩, [2]⟩, ⟨⟨-1, 1⟩, [1]⟩]],
      (Computer.buchbergerAlgorithmN_approx 30 _).eq (by decide +kernel) (by simp), by decide +kernel⟩⟩⟩

/-- Modulo the basis for `GrLex`, `x^2 y` is `y`: both are `0` at `(0, 0)` and `2` at `(1, 2)`. -/
theorem C220_run_interpolate : letI := Rational.field .debug
    interpolate (OrdKind.grLex.order .debug) 2 [[⟨0, 1⟩, ⟨0, 1⟩], [⟨1, 1⟩, ⟨2, 1⟩]] [⟨⟨1, 1⟩, [2, 1]⟩] =
      .ok (([[⟨⟨1, 1⟩, [0, 1]⟩, ⟨⟨-2, 1⟩, [1]⟩], [⟨⟨1, 1⟩, [0, 2]⟩, ⟨⟨-2, 1⟩, [0, 1]⟩]] : List (Poly Rational)),
        ([⟨⟨1, 1⟩, [0, 1]⟩] : Poly Rational)) := by
  let _ := Rational.field .debug
  refine bind_eq_ok.mpr ⟨_, C220_run, bind_eq_ok.mpr
    ⟨[[⟨⟨1, 1⟩, [0, 1]⟩, ⟨⟨-2, 1⟩, [1]⟩], [⟨⟨1, 1⟩, [0, 2]⟩, ⟨⟨-2, 1⟩, [0, 1]⟩]],
      (Computer.buchbergerAlgorithmN_approx 30 _).eq (by decide +kernel) (by simp), bind_eq_ok.mpr
    ⟨([⟨⟨1, 1⟩, [0, 1]⟩], [[⟨⟨-1, 2⟩, [1, 1]⟩, ⟨⟨-1, 4⟩, [0, 2]⟩], [⟨⟨1, 4⟩, [0, 1]⟩, ⟨⟨1, 2⟩, []⟩]]),
      (Computer.divideN_approx 30 _ _).eq (by decide +kernel) (by simp), rfl⟩⟩⟩

example : letI := Rational.field .debug
    letI := Rational.lawful
    ∀ a ∈ [[⟨0, 1⟩, ⟨0, 1⟩], [⟨1, 1⟩, (⟨2, 1⟩ : Rational)]], ∀ c ∈ a, wf (K := ℚ) c := by
  change ∀ a ∈ _, ∀ c ∈ a, Rational.WF c
  intro a ha c hc
  refine ⟨?_, ?_⟩ <;> revert c <;> revert a <;> decide

end Verif
