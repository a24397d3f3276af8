import Verif.Props.PolyMap
import Mathlib.RingTheory.Polynomial.Basic

/-!
# Property C237: inverting polynomial maps
-/

namespace Verif
open Res MvPolynomial LawfulRField PolyMap

section
variable {F : Type} [RField F]

/-- The variables expressed by `f_1, …, f_n`, if possible; the new variable `x_(n+j)` stands for `f_j`. -/
def invertMap (n : ℕ) (fs : List (Poly F)) : Res (Option (List (Poly F))) := do
  let rs ← (List.range n).mapM fun i => express n fs (Poly.var i 1)
  pure (if rs.all (onlyFrom n) then some rs else none)

end

/-- A surjective endomorphism of a noetherian ring is injective. -/
theorem injective_of_surjective_ringHom {R : Type} [CommRing R] [IsNoetherianRing R] (φ : R →+* R)
    (h : Function.Surjective φ) : Function.Injective φ := by
  rw [injective_iff_map_eq_zero]
  intro x hx
  let K : ℕ →o Ideal R := ⟨fun n => RingHom.ker (φ ^ n), monotone_nat_of_le_succ fun n y hy => by
    rw [RingHom.mem_ker] at hy ⊢
    rw [pow_succ', RingHom.mul_def, RingHom.comp_apply, hy, map_zero]⟩
  obtain ⟨n, hn⟩ := monotone_stabilizes_iff_noetherian.mpr ‹IsNoetherianRing R› K
  have hs : Function.Surjective (φ ^ n) := by
    rw [RingHom.coe_pow]
    exact h.iterate n
  obtain ⟨y, rfl⟩ := hs x
  have : y ∈ K (n + 1) := by
    show (φ ^ (n + 1)) y = 0
    rw [pow_succ', RingHom.mul_def, RingHom.comp_apply, hx]
  rw [← hn (n + 1) (by omega)] at this
  exact this

section
variable {F : Type} [RField F] {K : Type} [Field K] [LawfulRField F K] {n : ℕ}

theorem inverse_of_left {f g : Fin n → MvPolynomial (Fin n) K} (h : ∀ i, aeval f (g i) = X i) (j : Fin n) :
    aeval g (f j) = X j := by
  have hs : Function.Surjective (aeval f : MvPolynomial (Fin n) K →ₐ[K] MvPolynomial (Fin n) K) := fun p =>
    ⟨aeval g p, by
      rw [← AlgHom.comp_apply, comp_aeval]
      simp only [h]
      exact aeval_X_left_apply p⟩
  refine injective_of_surjective_ringHom (aeval f : MvPolynomial (Fin n) K →ₐ[K] _).toRingHom hs ?_
  show aeval f (aeval g (f j)) = aeval f (X j)
  rw [← AlgHom.comp_apply, comp_aeval, aeval_X]
  simp only [h]
  exact aeval_X_left_apply _

theorem express_clean (fs : List (Poly F)) (hf : ∀ f ∈ fs, Poly.Clean (Fin n) f) (f : Poly F)
    (hfc : Poly.Clean (Fin n) f) :
    Spec (PolyPanic F) (express n fs f) (fun r => Poly.Clean (Fin (n + fs.length)) r) := by
  refine (graphBasis_spec (K := K) fs hf).bind fun G hG => ?_
  refine (divide_gens (OrdKind.implements .lex _).poly polyPanic_allowed (fun g h => (hG.1 g h).1)
    (clean_add fs.length hfc)).bind ?_
  rintro ⟨r, qs⟩ ⟨hr, -⟩
  exact hr

/-- **C237** As many polynomials as variables: `invertMap` returns polynomials exactly if the polynomials have an inverse,
and the polynomials returned are the inverse, from both sides. -/
theorem C237_inverse (fs : List (Poly F)) (hf : ∀ f ∈ fs, Poly.Clean (Fin fs.length) f) :
    Spec (PolyPanic F) (invertMap fs.length fs) (fun o =>
      ((∃ g : Fin fs.length → MvPolynomial (Fin fs.length) K,
        (∀ i, aeval (fun j => (Poly.den (Fin fs.length) fs[j] : MvPolynomial (Fin fs.length) K)) (g i) = X i) ∧
        ∀ j, aeval g (Poly.den (Fin fs.length) fs[j] : MvPolynomial (Fin fs.length) K) = X j) ↔ o.isSome) ∧
      ∀ rs, o = some rs → ∃ g : Fin fs.length → MvPolynomial (Fin fs.length) K,
        rs.map (fun r => (Poly.den (Fin (fs.length + fs.length)) r :
          MvPolynomial (Fin (fs.length + fs.length)) K)) =
          List.ofFn (fun i => rename (Fin.natAdd fs.length) (g i)) ∧
        (∀ i, aeval (fun j => (Poly.den (Fin fs.length) fs[j] : MvPolynomial (Fin fs.length) K)) (g i) = X i) ∧
        ∀ j, aeval g (Poly.den (Fin fs.length) fs[j] : MvPolynomial (Fin fs.length) K) = X j) := by
  unfold invertMap
  have hone : ∀ i ∈ List.range fs.length, Spec (PolyPanic F) (express fs.length fs (Poly.var i 1)) (fun r =>
      ∃ hi : i < fs.length, Poly.Clean (Fin (fs.length + fs.length)) r ∧
        ((X ⟨i, hi⟩ : MvPolynomial (Fin fs.length) K) ∈ Algebra.adjoin K (dens (Fin fs.length) fs) ↔
          onlyFrom fs.length r = true) ∧
        ∀ p : MvPolynomial (Fin fs.length) K,
          Poly.den (Fin (fs.length + fs.length)) r = rename (Fin.natAdd fs.length) p →
          aeval (fun j : Fin fs.length => (Poly.den (Fin fs.length) fs[j] : MvPolynomial (Fin fs.length) K)) p =
            X ⟨i, hi⟩) := by
    intro i hi
    rw [List.mem_range] at hi
    obtain ⟨hv, hvd⟩ := var_clean_den (F := F) (K := K) ⟨i, hi⟩
    refine ((express_clean (K := K) fs hf _ hv).and (C144_subalgebra (K := K) fs hf _ hv)).imp ?_
    rintro r ⟨hr, h1, h2⟩
    rw [hvd] at h1 h2
    refine ⟨hi, hr, ?_, h2⟩
    rw [h1]
    unfold onlyFrom
    simp only [List.all_eq_true, List.mem_range, decide_eq_true_eq]
  refine (mapM_spec hone).bind fun rs hrs => ?_
  obtain ⟨hlen, hrs⟩ := List.forall₂_iff_get.mp hrs
  rw [List.length_range] at hlen
  have hall : ∀ i : Fin fs.length, Poly.Clean (Fin (fs.length + fs.length)) rs[i] ∧
        ((X i : MvPolynomial (Fin fs.length) K) ∈ Algebra.adjoin K (dens (Fin fs.length) fs) ↔
          onlyFrom fs.length rs[i] = true) ∧
        ∀ p : MvPolynomial (Fin fs.length) K,
          Poly.den (Fin (fs.length + fs.length)) rs[i] = rename (Fin.natAdd fs.length) p →
          aeval (fun j : Fin fs.length => (Poly.den (Fin fs.length) fs[j] : MvPolynomial (Fin fs.length) K)) p = X i := by
    intro i
    obtain ⟨_, h⟩ := hrs i.1 (by simp) (by omega)
    simpa using h
  have key : rs.all (onlyFrom fs.length) = true → ∃ g : Fin fs.length → MvPolynomial (Fin fs.length) K,
        rs.map (fun r => (Poly.den (Fin (fs.length + fs.length)) r :
          MvPolynomial (Fin (fs.length + fs.length)) K)) =
          List.ofFn (fun i => rename (Fin.natAdd fs.length) (g i)) ∧
        (∀ i, aeval (fun j => (Poly.den (Fin fs.length) fs[j] : MvPolynomial (Fin fs.length) K)) (g i) = X i) ∧
        ∀ j, aeval g (Poly.den (Fin fs.length) fs[j] : MvPolynomial (Fin fs.length) K) = X j := by
    intro h
    rw [List.all_eq_true] at h
    have hd : ∀ i : Fin fs.length, (Poly.den (Fin (fs.length + fs.length)) rs[i] :
        MvPolynomial (Fin (fs.length + fs.length)) K) =
        rename (Fin.natAdd fs.length) (drop (n := fs.length) (Poly.den (Fin (fs.length + fs.length)) rs[i])) :=
      fun i => (inr_drop ((onlyFrom_iff (hall i).1).mp (h _ (List.getElem_mem _)))).symm
    have hl := fun i => (hall i).2.2 _ (hd i)
    refine ⟨_, ?_, hl, inverse_of_left hl⟩
    refine List.ext_getElem (by simp [hlen]) fun i h1 h2 => ?_
    rw [List.getElem_map, List.getElem_ofFn]
    exact hd ⟨i, by simpa using h2⟩
  constructor
  · constructor
    · rintro ⟨g, hg, -⟩
      have : rs.all (onlyFrom fs.length) = true := by
        rw [List.all_eq_true]
        intro r hr
        obtain ⟨i, hi, rfl⟩ := List.mem_iff_getElem.mp hr
        refine (hall ⟨i, by omega⟩).2.1.mp ?_
        rw [← hg]
        have : (Set.range fun j : Fin fs.length => (Poly.den (Fin fs.length) fs[j] : MvPolynomial (Fin fs.length) K)) ⊆
            dens (Fin fs.length) fs := by
          rintro _ ⟨j, rfl⟩
          exact mem_dens (List.getElem_mem _)
        refine Algebra.adjoin_mono this ?_
        rw [Algebra.adjoin_range_eq_range_aeval]
        exact ⟨_, rfl⟩
      rw [if_pos this]; rfl
    · intro h
      by_cases ha : rs.all (onlyFrom fs.length) = true
      · obtain ⟨g, -, hg⟩ := key ha
        exact ⟨g, hg⟩
      · rw [if_neg ha] at h; cases h
  · intro rs' h
    by_cases ha : rs.all (onlyFrom fs.length) = true
    · rw [if_pos ha] at h
      cases h
      exact key ha
    · rw [if_neg ha] at h; cases h

end

/-- `(x + y^2, y)` has the inverse `(u - v^2, v)`; `(x^2, y)` has none. -/
theorem C237_run : letI := Rational.field .debug
    letI := Rational.lawful
    let f : Poly Rational := [⟨⟨1, 1⟩, [1]⟩, ⟨⟨1, 1⟩, [0, 2]⟩]
    (∀ p ∈ [f, opY, opXX], Poly.Clean (Fin 2) p) ∧
    invertMap 2 [f, opY] = .ok (some [[⟨⟨1, 1⟩, [0, 0, 1]⟩, ⟨⟨-1, 1⟩, [0, 0, 0, 2]⟩], [⟨⟨1, 1⟩, [0, 0, 0, 1]⟩]]) ∧
    invertMap 2 [opXX, opY] = .ok none := by
  let _ := Rational.field .debug
  intro f
  have h1 : graphBasis 2 [f, opY] = .ok [[⟨⟨1, 1⟩, [0, 0, 0, 1]⟩, ⟨⟨-1, 1⟩, [0, 1]⟩],
      [⟨⟨-1, 1⟩, [1]⟩, ⟨⟨1, 1⟩, [0, 0, 1]⟩, ⟨⟨-1, 1⟩, [0, 0, 0, 2]⟩]] :=
    bind_eq_ok.mpr ⟨[[⟨⟨1, 1⟩, [0, 0, 1]⟩, ⟨⟨-1, 1⟩, [1]⟩, ⟨⟨-1, 1⟩, [0, 2]⟩], [⟨⟨1, 1⟩, [0, 0, 0, 1]⟩, ⟨⟨-1, 1⟩, [0, 1]⟩]],
      by decide +kernel, (Computer.buchbergerAlgorithmN_approx 60 _).eq (by decide +kernel) (by simp)⟩
  have h2 : graphBasis 2 [opXX, opY] =
      .ok [[⟨⟨1, 1⟩, [0, 0, 1]⟩, ⟨⟨-1, 1⟩, [2]⟩], [⟨⟨1, 1⟩, [0, 0, 0, 1]⟩, ⟨⟨-1, 1⟩, [0, 1]⟩]] :=
    bind_eq_ok.mpr ⟨[[⟨⟨1, 1⟩, [0, 0, 1]⟩, ⟨⟨-1, 1⟩, [2]⟩], [⟨⟨1, 1⟩, [0, 0, 0, 1]⟩, ⟨⟨-1, 1⟩, [0, 1]⟩]],
      by decide +kernel, (Computer.buchbergerAlgorithmN_approx 60 _).eq (by decide +kernel) (by simp)⟩
  refine ⟨fun p hp => (sampleGens (k := 2) (by decide) p hp).1, ?_, ?_⟩
  · refine bind_eq_ok.mpr ⟨[[⟨⟨1, 1⟩, [0, 0, 1]⟩, ⟨⟨-1, 1⟩, [0, 0, 0, 2]⟩], [⟨⟨1, 1⟩, [0, 0, 0, 1]⟩]], ?_, by decide +kernel⟩
    rw [show List.range 2 = [0, 1] from rfl, List.mapM_cons, List.mapM_cons, List.mapM_nil]
    refine bind_eq_ok.mpr ⟨_, bind_eq_ok.mpr ⟨_, h1, bind_eq_ok.mpr
      ⟨([⟨⟨1, 1⟩, [0, 0, 1]⟩, ⟨⟨-1, 1⟩, [0, 0, 0, 2]⟩], [[], [⟨⟨-1, 1⟩, []⟩]]),
        (Computer.divideN_approx 60 _ _).eq (by decide +kernel) (by simp), rfl⟩⟩, bind_eq_ok.mpr ⟨_, bind_eq_ok.mpr ⟨_,
      bind_eq_ok.mpr ⟨_, h1, bind_eq_ok.mpr ⟨([⟨⟨1, 1⟩, [0, 0, 0, 1]⟩], [[⟨⟨-1, 1⟩, []⟩], []]),
        (Computer.divideN_approx 60 _ _).eq (by decide +kernel) (by simp), rfl⟩⟩, rfl⟩, rfl⟩⟩
  · refine bind_eq_ok.mpr ⟨[[⟨⟨1, 1⟩, [1]⟩], [⟨⟨1, 1⟩, [0, 0, 0, 1]⟩]], ?_, by decide +kernel⟩
    rw [show List.range 2 = [0, 1] from rfl, List.mapM_cons, List.mapM_cons, List.mapM_nil]
    refine bind_eq_ok.mpr ⟨_, bind_eq_ok.mpr ⟨_, h2, bind_eq_ok.mpr ⟨([⟨⟨1, 1⟩, [1]⟩], [[], []]),
        (Computer.divideN_approx 60 _ _).eq (by decide +kernel) (by simp), rfl⟩⟩, bind_eq_ok.mpr ⟨_, bind_eq_ok.mpr ⟨_,
      bind_eq_ok.mpr ⟨_, h2, bind_eq_ok.mpr ⟨([⟨⟨1, 1⟩, [0, 0, 0, 1]⟩], [[], [⟨⟨-1, 1⟩, []⟩]]),
        (Computer.divideN_approx 60 _ _).eq (by decide +kernel) (by simp), rfl⟩⟩, rfl⟩, rfl⟩⟩

end Verif
