import Verif.Props.Ideal
import Verif.Proofs.ExtraVar

/-!
# Properties C133–C135: operations on ideals with one more variable

The library computes Gröbner bases; membership in a radical, saturations and intersections of ideals
are computed with it by adding a variable.  These are the programs and what they return.
-/

namespace Verif
open Res MvPolynomial LawfulRField ExtraVar

/-! ### The programs -/

section
variable {F : Type} [RField F]

/-- `Polynomial::one() - Polynomial::var(k, 1) * f` -/
def oneMinusVarMul (k : ℕ) (f : Poly F) : Res (Poly F) := do
  let tf ← Poly.mul (Poly.var k 1) f
  Poly.sub Poly.one tf

/-- The elements without the variable `k`. -/
def withoutVar (k : ℕ) (G : List (Poly F)) : List (Poly F) :=
  G.filter fun g => g.all fun t => t.mdeg.deg k = 0

/-- A basis of `gens` and `1 - x_k f`. -/
def rabinowitsch (O : MOrder) (k : ℕ) (gens : List (Poly F)) (f : Poly F) : Res (List (Poly F)) := do
  let h ← oneMinusVarMul k f
  Computer.buchbergerAlgorithm O (gens ++ [h])

/-- Generators of the saturation. -/
def saturate (k : ℕ) (gens : List (Poly F)) (f : Poly F) : Res (List (Poly F)) := do
  let G ← rabinowitsch (OrdKind.revLex.order .debug) k gens f
  pure (withoutVar k G)

/-- Generators of the intersection: the elements without `x_k` of a basis of the `x_k g` for `g` in the
first list and the `g - x_k g` for `g` in the second. -/
def intersect (k : ℕ) (gens₁ gens₂ : List (Poly F)) : Res (List (Poly F)) := do
  let a ← gens₁.mapM fun g => Poly.mul (Poly.var k 1) g
  let b ← gens₂.mapM fun g => do
    let tg ← Poly.mul (Poly.var k 1) g
    Poly.sub g tg
  let G ← Computer.buchbergerAlgorithm (OrdKind.revLex.order .debug) (a ++ b)
  pure (withoutVar k G)

/-- Generators of the quotient of the ideal by `f`: those of its intersection with the ideal of `f`,
divided by `f`. -/
def quotientBy (O : MOrder) (k : ℕ) (gens : List (Poly F)) (f : Poly F) : Res (List (Poly F)) := do
  let H ← intersect k gens [f]
  H.mapM fun h => do
    let (_, qs) ← Computer.divide O h [f]
    match qs[0]? with
    | none => .panic .indexOutOfBounds
    | some q => pure q

end

/-! ### Polynomials in `k` and in `k + 1` variables -/

section
variable {F : Type} [RField F] {K : Type} [Field K] [LawfulRField F K] {k : ℕ}

theorem inVars_succ {m : MDeg} (h : m.InVars (Fin k)) : m.InVars (Fin (k + 1)) := fun i hi => by
  obtain ⟨s, hs⟩ := h i hi
  exact ⟨s.castSucc, hs⟩

theorem inVars_of_deg {m : MDeg} (h : m.InVars (Fin (k + 1))) (hk : m.deg k = 0) :
    m.InVars (Fin k) := fun i hi => by
  obtain ⟨s, hs⟩ := h i hi
  have hsi : s.val = i := hs
  have : i ≠ k := fun e => hi (e ▸ hk)
  exact ⟨⟨i, by have := s.2; omega⟩, rfl⟩

theorem deg_last {m : MDeg} (h : m.InVars (Fin k)) : m.deg k = 0 := by
  by_contra hc
  obtain ⟨s, hs⟩ := h k hc
  have hs : s.val = k := hs
  have := s.2
  omega

theorem clean_succ {p : Poly F} (h : Poly.Clean (Fin k) p) : Poly.Clean (Fin (k + 1)) p :=
  ⟨fun t ht => ⟨⟨(h.terms t ht).wf, (h.terms t ht).mdeg, inVars_succ (h.terms t ht).vars⟩,
    (h.terms t ht).ne⟩, h.nodup⟩

theorem clean_of_deg {p : Poly F} (h : Poly.Clean (Fin (k + 1)) p)
    (hk : ∀ t ∈ p, t.mdeg.deg k = 0) : Poly.Clean (Fin k) p :=
  ⟨fun t ht => ⟨⟨(h.terms t ht).wf, (h.terms t ht).mdeg, inVars_of_deg (h.terms t ht).vars (hk t ht)⟩,
    (h.terms t ht).ne⟩, h.nodup⟩

theorem toF_succ {m : MDeg} (h : m.InVars (Fin k)) :
    m.toF (Fin (k + 1)) = (m.toF (Fin k)).mapDomain Fin.castSucc := by
  ext i
  rw [MDeg.toF_apply]
  change m.deg i.val = _
  refine Fin.lastCases ?_ (fun j => ?_) i
  · rw [Finsupp.mapDomain_of_notMem_range _ _ (by rintro ⟨j, hj⟩; exact j.castSucc_ne_last hj)]
    exact deg_last h
  · rw [Finsupp.mapDomain_apply (Fin.castSucc_injective k), MDeg.toF_apply]
    rfl

theorem den_succ {p : Poly F} (h : ∀ t ∈ p, t.mdeg.InVars (Fin k)) :
    (Poly.den (Fin (k + 1)) p : MvPolynomial (Fin (k + 1)) K) = emb (Poly.den (Fin k) p) := by
  induction p with
  | nil => simp
  | cons t p ih =>
    rw [Poly.den_cons, Poly.den_cons, map_add, ih fun u hu => h u (by simp [hu])]
    congr 1
    unfold Term.den emb
    rw [rename_monomial, toF_succ (h t (by simp))]

theorem Poly.Clean.vars {p : Poly F} (h : Poly.Clean (Fin k) p) : ∀ t ∈ p, t.mdeg.InVars (Fin k) :=
  fun t ht => (h.terms t ht).vars

theorem dens_succ {gens : List (Poly F)} (h : ∀ g ∈ gens, Poly.Clean (Fin k) g) :
    (dens (Fin (k + 1)) gens : Set (MvPolynomial (Fin (k + 1)) K)) = emb '' dens (Fin k) gens := by
  ext x
  constructor
  · rintro ⟨g, hg, rfl⟩
    exact ⟨_, ⟨g, hg, rfl⟩, (den_succ (h g hg).vars).symm⟩
  · rintro ⟨_, ⟨g, hg, rfl⟩, rfl⟩
    exact ⟨g, hg, (den_succ (h g hg).vars).symm⟩

theorem var_last : Poly.Clean (Fin (k + 1)) (Poly.var k 1 : Poly F) ∧
    (Poly.den (Fin (k + 1)) (Poly.var k 1 : Poly F) : MvPolynomial (Fin (k + 1)) K) = last := by
  have hc : (MDeg.var k 1).Clean := MDeg.var_clean k 1 (by omega)
  have hv : (MDeg.var k 1).InVars (Fin (k + 1)) := by
    intro i hi
    rw [MDeg.deg_var] at hi
    by_cases h : i = k
    · exact ⟨Fin.last k, h.symm⟩
    · rw [if_neg h] at hi; exact absurd rfl hi
  have e : (Poly.var k 1 : Poly F) = [Term.monic (MDeg.var k 1)] := rfl
  rw [e]
  refine ⟨Poly.clean_singleton.mpr (Term.monic_clean hc hv), ?_⟩
  rw [Poly.den_cons, Poly.den_nil, add_zero, Term.den_monic]
  unfold last X
  refine congrArg (fun e => monomial e (1 : K)) (Finsupp.ext fun i => ?_)
  rw [MDeg.toF_apply, MDeg.deg_var, Finsupp.single_apply]
  change (if i.val = k then 1 else 0) = _
  refine if_congr ?_ rfl rfl
  rw [Fin.ext_iff]
  exact eq_comm

theorem one_clean_den : Poly.Clean (Fin k) (Poly.one : Poly F) ∧
    (Poly.den (Fin k) (Poly.one : Poly F) : MvPolynomial (Fin k) K) = 1 := by
  have e : (Poly.one : Poly F) = [Term.one] := rfl
  rw [e]
  refine ⟨Poly.clean_singleton.mpr Term.one_clean, ?_⟩
  rw [Poly.den_cons, Poly.den_nil, add_zero, Term.den_one]

theorem varMul_spec {f : Poly F} (hf : Poly.Clean (Fin k) f) :
    Spec (PolyPanic F) (Poly.mul (Poly.var k 1) f) (fun r => Poly.Clean (Fin (k + 1)) r ∧
      (Poly.den (Fin (k + 1)) r : MvPolynomial (Fin (k + 1)) K) = last * emb (Poly.den (Fin k) f)) := by
  have h := var_last (F := F) (K := K) (k := k)
  refine (Poly.mul_spec (E := PolyPanic F) h.1.oks (clean_succ hf) polyPanic_allowed
    (Or.inl (Or.inr rfl))).imp fun r hr => ⟨hr.1, ?_⟩
  rw [hr.2, h.2, den_succ hf.vars]

theorem oneMinusVarMul_spec {f : Poly F} (hf : Poly.Clean (Fin k) f) :
    Spec (PolyPanic F) (oneMinusVarMul k f) (fun h => Poly.Clean (Fin (k + 1)) h ∧
      Poly.den (Fin (k + 1)) h ≠ (0 : MvPolynomial (Fin (k + 1)) K) ∧
      (Poly.den (Fin (k + 1)) h : MvPolynomial (Fin (k + 1)) K) =
        1 - last * emb (Poly.den (Fin k) f)) := by
  refine (varMul_spec hf).bind fun tf htf => ?_
  have h1 := one_clean_den (F := F) (K := K) (k := k + 1)
  refine (Poly.sub_spec h1.1 htf.1).mono polyPanic_allowed fun h hh => ?_
  have e : (Poly.den (Fin (k + 1)) h : MvPolynomial (Fin (k + 1)) K) =
      1 - last * emb (Poly.den (Fin k) f) := by rw [hh.2, h1.2, htf.2]
  refine ⟨hh.1, fun h0 => ?_, e⟩
  rw [h0] at e
  have := congrArg (subst 0) e
  rw [map_zero, map_sub, map_one, map_mul, subst_last, zero_mul, sub_zero] at this
  exact zero_ne_one this

theorem den_ne_succ {g : Poly F} (h : Poly.Clean (Fin k) g)
    (h0 : Poly.den (Fin k) g ≠ (0 : MvPolynomial (Fin k) K)) :
    Poly.den (Fin (k + 1)) g ≠ (0 : MvPolynomial (Fin (k + 1)) K) := fun e => by
  rw [den_succ h.vars] at e
  have := congrArg (subst 0) e
  rw [subst_emb, map_zero] at this
  exact h0 this

theorem gens_succ {gens : List (Poly F)}
    (hg : ∀ g ∈ gens, Poly.Clean (Fin k) g ∧ Poly.den (Fin k) g ≠ (0 : MvPolynomial (Fin k) K)) :
    ∀ g ∈ gens, Poly.Clean (Fin (k + 1)) g ∧
      Poly.den (Fin (k + 1)) g ≠ (0 : MvPolynomial (Fin (k + 1)) K) :=
  fun g h => ⟨clean_succ (hg g h).1, den_ne_succ (hg g h).1 (hg g h).2⟩

theorem dens_append (n : ℕ) (a b : List (Poly F)) :
    (dens (Fin n) (a ++ b) : Set (MvPolynomial (Fin n) K)) = dens (Fin n) a ∪ dens (Fin n) b := by
  ext x
  constructor
  · rintro ⟨g, hg, rfl⟩
    rcases List.mem_append.mp hg with h | h
    · exact .inl ⟨g, h, rfl⟩
    · exact .inr ⟨g, h, rfl⟩
  · rintro (⟨g, h, rfl⟩ | ⟨g, h, rfl⟩)
    · exact ⟨g, List.mem_append_left _ h, rfl⟩
    · exact ⟨g, List.mem_append_right _ h, rfl⟩

theorem dens_singleton (n : ℕ) (h : Poly F) :
    (dens (Fin n) [h] : Set (MvPolynomial (Fin n) K)) = {Poly.den (Fin n) h} := by
  ext x
  constructor
  · rintro ⟨g, hg, rfl⟩
    rw [List.mem_singleton.mp hg]; rfl
  · rintro rfl
    exact ⟨h, by simp, rfl⟩

omit [RField F] in
theorem mem_withoutVar {G : List (Poly F)} {g : Poly F} :
    g ∈ withoutVar k G ↔ g ∈ G ∧ ∀ t ∈ g, t.mdeg.deg k = 0 := by
  unfold withoutVar
  rw [List.mem_filter, List.all_eq_true]
  simp

/-- The elements without the last variable of a `RevLex` basis. -/
theorem eliminate_last (gens : List (Poly F)) (hg : ∀ g ∈ gens, Poly.Clean (Fin (k + 1)) g ∧
      Poly.den (Fin (k + 1)) g ≠ (0 : MvPolynomial (Fin (k + 1)) K)) :
    Spec (PolyPanic F) (Computer.buchbergerAlgorithm (OrdKind.revLex.order .debug) gens) (fun G =>
      (∀ h ∈ withoutVar k G, Poly.Clean (Fin k) h) ∧
      (∀ g : MvPolynomial (Fin k) K, g ∈ Ideal.span (dens (Fin k) (withoutVar k G)) ↔
        emb g ∈ Ideal.span (dens (Fin (k + 1)) gens)) ∧
      ∀ h ∈ withoutVar k G, Poly.den (Fin k) h ≠ (0 : MvPolynomial (Fin k) K)) := by
  refine (algorithm_spec (OrdKind.implements .revLex (k + 1)) gens hg (fun _ => True) trivial
    fun _ _ => trivial).imp fun G h => ?_
  have hcl : ∀ p ∈ withoutVar k G, Poly.Clean (Fin k) p := fun p hp =>
    clean_of_deg (h.1 p (mem_withoutVar.mp hp).1).1 (mem_withoutVar.mp hp).2
  refine ⟨hcl, fun g => ⟨fun hgm => ?_, fun hgm => ?_⟩, fun p hp h0 => h.1.den_ne (mem_withoutVar.mp hp).1 (by
    rw [den_succ (hcl p hp).vars, h0, map_zero])⟩
  · have := mul_emb_mem (S := dens (Fin k) (withoutVar k G)) (c := 1)
      (J := Ideal.span (dens (Fin (k + 1)) gens)) ?_ hgm
    · rwa [one_mul] at this
    · rintro _ ⟨p, hp, rfl⟩
      rw [one_mul, ← den_succ (hcl p hp).vars]
      rw [← h.2.1.span_eq]
      exact Ideal.subset_span ⟨p, (mem_withoutVar.mp hp).1, rfl⟩
  · have hs : emb g ∈ supported K {i : Fin (k + 1) | i.val < k} := by
      rw [mem_supported]
      intro i hi
      unfold emb at hi
      obtain ⟨j, -, rfl⟩ := Finset.mem_image.mp (vars_rename _ _ hi)
      exact j.2
    have := (elimination (revLex_eliminates k) h.2.1 (emb g)).mp ⟨hgm, hs⟩
    clear hgm hs
    rw [← subst_emb 0 g]
    generalize emb g = x at this
    induction this using Submodule.span_induction with
    | mem x hx =>
      obtain ⟨⟨p, hp, rfl⟩, hx⟩ := hx
      have hpc := (h.1 p hp).1
      have hp0 : ∀ t ∈ p, t.mdeg.deg k = 0 := by
        intro t ht
        rw [mem_supported_iff] at hx
        by_contra hc
        have := hx (t.mdeg.toF (Fin (k + 1))) ((Poly.mem_support_den hpc).mpr ⟨t, ht, rfl⟩) (Fin.last k) (by
          rw [MDeg.toF_apply]; exact hc)
        exact absurd this (by simp)
      have hm : p ∈ withoutVar k G := mem_withoutVar.mpr ⟨hp, hp0⟩
      rw [den_succ (hcl p hm).vars, subst_emb]
      exact Ideal.subset_span ⟨p, hm, rfl⟩
    | zero => rw [map_zero]; exact Ideal.zero_mem _
    | add x y _ _ hx hy => rw [map_add]; exact Ideal.add_mem _ hx hy
    | smul a x _ hx =>
      rw [Algebra.smul_def, map_mul]
      exact Ideal.mul_mem_left _ _ hx

/-! ## C133 radical membership -/

theorem rabinowitsch_gens {gens : List (Poly F)} {f : Poly F}
    (hg : ∀ g ∈ gens, Poly.Clean (Fin k) g ∧ Poly.den (Fin k) g ≠ (0 : MvPolynomial (Fin k) K))
    (hf : Poly.Clean (Fin k) f) :
    Spec (PolyPanic F) (oneMinusVarMul k f) (fun h =>
      (∀ g ∈ gens ++ [h], Poly.Clean (Fin (k + 1)) g ∧
        Poly.den (Fin (k + 1)) g ≠ (0 : MvPolynomial (Fin (k + 1)) K)) ∧
      (dens (Fin (k + 1)) (gens ++ [h]) : Set (MvPolynomial (Fin (k + 1)) K)) =
        emb '' dens (Fin k) gens ∪ {1 - last * emb (Poly.den (Fin k) f)}) := by
  refine (oneMinusVarMul_spec hf).imp fun h hh => ⟨fun g hgm => ?_, ?_⟩
  · rcases List.mem_append.mp hgm with hgm | hgm
    · exact gens_succ hg g hgm
    · rw [List.mem_singleton.mp hgm]; exact ⟨hh.1, hh.2.1⟩
  · rw [dens_append, dens_singleton, dens_succ fun g h => (hg g h).1, hh.2.2]

/-- C133. A power of `f` lies in the ideal generated by `gens` exactly when the basis of `gens` and
`1 - x_k f` is a single constant, `x_k` being a variable that does not occur. -/
theorem C133_radical {O : MOrder} {m : MonomialOrder (Fin (k + 1))} (hO : Implements O m)
    (gens : List (Poly F)) (f : Poly F)
    (hg : ∀ g ∈ gens, Poly.Clean (Fin k) g ∧ Poly.den (Fin k) g ≠ (0 : MvPolynomial (Fin k) K))
    (hf : Poly.Clean (Fin k) f) :
    Spec (PolyPanic F) (rabinowitsch O k gens f) (fun G =>
      (∃ c : F, val c ≠ (0 : K) ∧ G = [[⟨c, []⟩]]) ↔
        (Poly.den (Fin k) f : MvPolynomial (Fin k) K) ∈ (Ideal.span (dens (Fin k) gens)).radical) := by
  refine (rabinowitsch_gens hg hf).bind fun h hh => ?_
  refine (C99_unit_ideal hO _ hh.1).imp fun G hG => ?_
  have := saturation (dens (Fin k) gens) (Poly.den (Fin k) f : MvPolynomial (Fin k) K) 1
  rw [map_one] at this
  rw [← hG, hh.2, this, Ideal.mem_radical_iff]
  simp only [mul_one]

/-- C133 (Nullstellensatz). The same, as a statement about zeros: `f` vanishes at all common zeros of
`gens` with coordinates in an algebraic closure. -/
theorem C133_vanishes {O : MOrder} {m : MonomialOrder (Fin (k + 1))} (hO : Implements O m)
    (gens : List (Poly F)) (f : Poly F)
    (hg : ∀ g ∈ gens, Poly.Clean (Fin k) g ∧ Poly.den (Fin k) g ≠ (0 : MvPolynomial (Fin k) K))
    (hf : Poly.Clean (Fin k) f) :
    Spec (PolyPanic F) (rabinowitsch O k gens f) (fun G => (∃ c : F, G = [[⟨c, []⟩]]) ↔
      ∀ x : Fin k → AlgebraicClosure K,
        (∀ g ∈ gens, aeval x (Poly.den (Fin k) g : MvPolynomial (Fin k) K) = 0) →
        aeval x (Poly.den (Fin k) f : MvPolynomial (Fin k) K) = 0) := by
  have hemb : ∀ (x : Fin (k + 1) → AlgebraicClosure K) (p : MvPolynomial (Fin k) K),
      aeval x (emb p) = aeval (fun i => x i.castSucc) p := fun x p => by
    unfold emb
    rw [aeval_rename]; rfl
  refine ((oneMinusVarMul_spec hf).and (rabinowitsch_gens hg hf)).bind fun h hh => ?_
  refine (C99_solvable hO _ hh.2.1).imp fun G hG => ?_
  rw [← not_iff_not, ← hG]
  push Not
  constructor
  · rintro ⟨x, hx⟩
    refine ⟨fun i => x i.castSucc, fun g hgm => ?_, fun h0 => ?_⟩
    · have := hx g (by simp [hgm])
      rwa [den_succ (hg g hgm).1.vars, hemb] at this
    · have := hx h (by simp)
      rw [hh.1.2.2, map_sub, map_mul, hemb, h0, mul_zero, sub_zero, map_one] at this
      exact one_ne_zero this
  · rintro ⟨x, hx, h0⟩
    refine ⟨Fin.snoc (α := fun _ => AlgebraicClosure K) x
      (aeval x (Poly.den (Fin k) f : MvPolynomial (Fin k) K))⁻¹, fun g hgm => ?_⟩
    rcases List.mem_append.mp hgm with hgm | hgm
    · rw [den_succ (hg g hgm).1.vars, hemb]
      simpa using hx g hgm
    · rw [List.mem_singleton.mp hgm, hh.1.2.2, map_sub, map_mul, hemb, map_one]
      unfold last
      rw [aeval_X, Fin.snoc_last]
      simp only [Fin.snoc_castSucc]
      rw [inv_mul_cancel₀ h0, sub_self]

/-! ## C134 saturations -/

/-- C134. The result generates the saturation of the ideal: the polynomials whose product with some power
of `f` lies in it. -/
theorem C134_saturation (gens : List (Poly F)) (f : Poly F)
    (hg : ∀ g ∈ gens, Poly.Clean (Fin k) g ∧ Poly.den (Fin k) g ≠ (0 : MvPolynomial (Fin k) K))
    (hf : Poly.Clean (Fin k) f) :
    Spec (PolyPanic F) (saturate k gens f) (fun H => (∀ h ∈ H, Poly.Clean (Fin k) h) ∧
      ∀ g : MvPolynomial (Fin k) K, g ∈ Ideal.span (dens (Fin k) H) ↔
        ∃ N : ℕ, Poly.den (Fin k) f ^ N * g ∈ Ideal.span (dens (Fin k) gens)) := by
  unfold saturate rabinowitsch
  rw [bind_assoc]
  refine (rabinowitsch_gens hg hf).bind fun h hh => ?_
  refine (eliminate_last _ hh.1).bind fun G hG => ⟨hG.1, fun g => ?_⟩
  rw [hG.2.1, hh.2, saturation]

/-! ## C135 intersections -/

/-- The result of `intersect`. -/
theorem intersect_spec (gens₁ gens₂ : List (Poly F))
    (hg₁ : ∀ g ∈ gens₁, Poly.Clean (Fin k) g ∧ Poly.den (Fin k) g ≠ (0 : MvPolynomial (Fin k) K))
    (hg₂ : ∀ g ∈ gens₂, Poly.Clean (Fin k) g ∧ Poly.den (Fin k) g ≠ (0 : MvPolynomial (Fin k) K)) :
    Spec (PolyPanic F) (intersect k gens₁ gens₂) (fun H => (∀ h ∈ H, Poly.Clean (Fin k) h ∧
        Poly.den (Fin k) h ≠ (0 : MvPolynomial (Fin k) K)) ∧
      Ideal.span (dens (Fin k) H : Set (MvPolynomial (Fin k) K)) =
        Ideal.span (dens (Fin k) gens₁) ⊓ Ideal.span (dens (Fin k) gens₂)) := by
  have image : ∀ {gens a : List (Poly F)} {φ : MvPolynomial (Fin k) K → MvPolynomial (Fin (k + 1)) K},
      List.Forall₂ (fun g r => Poly.Clean (Fin (k + 1)) r ∧
        Poly.den (Fin (k + 1)) r = φ (Poly.den (Fin k) g)) gens a →
      (dens (Fin (k + 1)) a : Set (MvPolynomial (Fin (k + 1)) K)) = φ '' dens (Fin k) gens := by
    intro gens a φ h
    ext x
    constructor
    · rintro ⟨r, hr, rfl⟩
      obtain ⟨g, hg, h⟩ := forall₂_mem_right h hr
      exact ⟨_, ⟨g, hg, rfl⟩, h.2.symm⟩
    · rintro ⟨_, ⟨g, hg, rfl⟩, rfl⟩
      obtain ⟨r, hr, h⟩ := forall₂_mem_right h.flip hg
      exact ⟨r, hr, h.2.symm⟩
  unfold intersect
  refine (mapM_spec (P := fun g r => Poly.Clean (Fin (k + 1)) r ∧
    (Poly.den (Fin (k + 1)) r : MvPolynomial (Fin (k + 1)) K) =
      (fun s => last * emb s) (Poly.den (Fin k) g)) fun g hg => varMul_spec (hg₁ g hg).1).bind
    fun a ha => ?_
  refine (mapM_spec (P := fun g r => Poly.Clean (Fin (k + 1)) r ∧
    (Poly.den (Fin (k + 1)) r : MvPolynomial (Fin (k + 1)) K) =
      (fun s => emb s - last * emb s) (Poly.den (Fin k) g)) fun g hg => ?_).bind fun b hb => ?_
  · refine (varMul_spec (hg₂ g hg).1).bind fun tg htg => ?_
    refine (Poly.sub_spec (clean_succ (hg₂ g hg).1) htg.1).mono polyPanic_allowed fun r hr => ⟨hr.1, ?_⟩
    rw [hr.2, htg.2, den_succ (hg₂ g hg).1.vars]
  · have hok : ∀ g ∈ a ++ b, Poly.Clean (Fin (k + 1)) g ∧
        Poly.den (Fin (k + 1)) g ≠ (0 : MvPolynomial (Fin (k + 1)) K) := by
      intro r hr
      rcases List.mem_append.mp hr with hr | hr
      · obtain ⟨g, hg, h⟩ := forall₂_mem_right ha hr
        refine ⟨h.1, fun h0 => (hg₁ g hg).2 ?_⟩
        have := congrArg (subst 1) (h.2.symm.trans h0)
        simpa only [map_mul, subst_last, subst_emb, one_mul, map_zero] using this
      · obtain ⟨g, hg, h⟩ := forall₂_mem_right hb hr
        refine ⟨h.1, fun h0 => (hg₂ g hg).2 ?_⟩
        have := congrArg (subst 0) (h.2.symm.trans h0)
        simpa only [map_sub, map_mul, subst_last, subst_emb, zero_mul, map_zero, sub_zero] using this
    refine (eliminate_last _ hok).bind fun G hG => ⟨fun h hh => ⟨hG.1 h hh, hG.2.2 h hh⟩, ?_⟩
    ext g
    rw [hG.2.1, dens_append, image (φ := fun s => last * emb s) ha,
      image (φ := fun s => emb s - last * emb s) hb, intersection, Ideal.mem_inf]

/-- C135. The result generates the intersection of the ideals. -/
theorem C135_intersection (gens₁ gens₂ : List (Poly F))
    (hg₁ : ∀ g ∈ gens₁, Poly.Clean (Fin k) g ∧ Poly.den (Fin k) g ≠ (0 : MvPolynomial (Fin k) K))
    (hg₂ : ∀ g ∈ gens₂, Poly.Clean (Fin k) g ∧ Poly.den (Fin k) g ≠ (0 : MvPolynomial (Fin k) K)) :
    Spec (PolyPanic F) (intersect k gens₁ gens₂) (fun H => (∀ h ∈ H, Poly.Clean (Fin k) h) ∧
      Ideal.span (dens (Fin k) H : Set (MvPolynomial (Fin k) K)) =
        Ideal.span (dens (Fin k) gens₁) ⊓ Ideal.span (dens (Fin k) gens₂)) :=
  (intersect_spec gens₁ gens₂ hg₁ hg₂).imp fun _ h => ⟨fun p hp => (h.1 p hp).1, h.2⟩

/-- C135. For single polynomials: the common multiples. -/
theorem C135_common_multiples (f g : Poly F)
    (hf : Poly.Clean (Fin k) f ∧ Poly.den (Fin k) f ≠ (0 : MvPolynomial (Fin k) K))
    (hg : Poly.Clean (Fin k) g ∧ Poly.den (Fin k) g ≠ (0 : MvPolynomial (Fin k) K)) :
    Spec (PolyPanic F) (intersect k [f] [g]) (fun H =>
      ∀ p : MvPolynomial (Fin k) K, p ∈ Ideal.span (dens (Fin k) H) ↔
        Poly.den (Fin k) f ∣ p ∧ Poly.den (Fin k) g ∣ p) := by
  refine (C135_intersection [f] [g] (by simpa using hf) (by simpa using hg)).imp fun H hH p => ?_
  rw [hH.2, Ideal.mem_inf, dens_singleton, dens_singleton, Ideal.mem_span_singleton,
    Ideal.mem_span_singleton]

/-! ## C136 division by one polynomial -/

/-- One nonzero polynomial is a Gröbner basis. -/
theorem groebner_singleton (m : MonomialOrder (Fin k)) {g : Poly F} (hg : Poly.Clean (Fin k) g)
    (h0 : Poly.den (Fin k) g ≠ (0 : MvPolynomial (Fin k) K)) : GroebnerList (K := K) m [g] := by
  refine ⟨by simpa using hg, fun f hf hf0 => ⟨g, by simp, h0, ?_⟩⟩
  rw [dens_singleton, Ideal.mem_span_singleton] at hf
  obtain ⟨c, rfl⟩ := hf
  have hc : c ≠ 0 := fun h => hf0 (by rw [h, mul_zero])
  rw [m.degree_mul h0 hc]
  exact le_self_add

/-- C136. Dividing by one nonzero polynomial gives one quotient; the remainder is zero exactly when `g`
divides `f`, and then the quotient is the quotient; in any case quotient and remainder are the only
polynomials with `f = q g + r` where no term of `r` is divisible by the leading term of `g`. -/
theorem C136_divide_one {O : MOrder} {m : MonomialOrder (Fin k)} (hO : Implements O m) (f g : Poly F)
    (hf : Poly.Clean (Fin k) f) (hg : Poly.Clean (Fin k) g)
    (h0 : Poly.den (Fin k) g ≠ (0 : MvPolynomial (Fin k) K)) :
    Spec (PolyPanic F) (Computer.divide O f [g]) (fun (r, qs) => ∃ q, qs = [q] ∧
      Poly.Clean (Fin k) q ∧ Poly.Clean (Fin k) r ∧
      (r = [] ↔ Poly.den (Fin k) g ∣ (Poly.den (Fin k) f : MvPolynomial (Fin k) K)) ∧
      (Poly.den (Fin k) f : MvPolynomial (Fin k) K) =
        Poly.den (Fin k) q * Poly.den (Fin k) g + Poly.den (Fin k) r ∧
      ∀ q' r' : MvPolynomial (Fin k) K, Poly.den (Fin k) f = q' * Poly.den (Fin k) g + r' →
        (∀ e ∈ r'.support, ¬ m.degree (Poly.den (Fin k) g : MvPolynomial (Fin k) K) ≤ e) →
        q' = Poly.den (Fin k) q ∧ r' = Poly.den (Fin k) r) := by
  have hG := groebner_singleton m hg h0
  refine ((C36_divide_identity hO f [g] hf (by simpa using hg)).and
    ((C37_remainder_reduced hO f [g] hf (by simpa using hg)).and
      (C48_membership hO f [g] hf hG))).imp ?_
  rintro ⟨r, qs⟩ ⟨⟨hr, hl, hq, he⟩, hred, hz⟩
  simp only at hr hl hq he hred hz
  obtain ⟨q, rfl⟩ := List.length_eq_one_iff.mp hl
  have e : (Poly.den (Fin k) f : MvPolynomial (Fin k) K) =
      Poly.den (Fin k) q * Poly.den (Fin k) g + Poly.den (Fin k) r := by
    rw [he]; simp [combination]
  refine ⟨q, rfl, hq q (by simp), hr, ?_, e, fun q' r' e' hr' => ?_⟩
  · rw [dens_singleton, Ideal.mem_span_singleton] at hz
    rw [← hz]
    exact List.isEmpty_iff.symm
  · have hrr : r' = Poly.den (Fin k) r := by
      refine IsGroebner.unique hG.isGroebner hG.isGroebner ?_ (fun e he x hx hx0 => ?_)
        fun e he x hx hx0 => ?_
      · rw [dens_singleton, Ideal.mem_span_singleton]
        refine ⟨Poly.den (Fin k) q - q', ?_⟩
        have := e'.symm.trans e
        linear_combination this
      · obtain ⟨p, hp, rfl⟩ := hx
        rw [List.mem_singleton.mp hp]
        exact hr' e he
      · obtain ⟨p, hp, rfl⟩ := hx
        exact hred e he p hp hx0
    refine ⟨?_, hrr⟩
    have := e'.symm.trans e
    rw [hrr] at this
    exact mul_right_cancel₀ h0 (add_right_cancel this)

/-! ## C137 quotients of ideals -/

/-- C137. The result generates the quotient of the ideal by `f`: the polynomials whose product with `f`
lies in it. -/
theorem C137_quotient {O : MOrder} {m : MonomialOrder (Fin k)} (hO : Implements O m)
    (gens : List (Poly F)) (f : Poly F)
    (hg : ∀ g ∈ gens, Poly.Clean (Fin k) g ∧ Poly.den (Fin k) g ≠ (0 : MvPolynomial (Fin k) K))
    (hf : Poly.Clean (Fin k) f ∧ Poly.den (Fin k) f ≠ (0 : MvPolynomial (Fin k) K)) :
    Spec (PolyPanic F) (quotientBy O k gens f) (fun Q => (∀ q ∈ Q, Poly.Clean (Fin k) q) ∧
      ∀ g : MvPolynomial (Fin k) K, g ∈ Ideal.span (dens (Fin k) Q) ↔
        Poly.den (Fin k) f * g ∈ Ideal.span (dens (Fin k) gens)) := by
  refine (C135_intersection gens [f] hg (by simpa using hf)).bind fun H hH => ?_
  have hdvd : ∀ h ∈ H, (Poly.den (Fin k) f : MvPolynomial (Fin k) K) ∣ Poly.den (Fin k) h := by
    intro h hm
    have : (Poly.den (Fin k) h : MvPolynomial (Fin k) K) ∈ Ideal.span (dens (Fin k) H) :=
      Ideal.subset_span ⟨h, hm, rfl⟩
    rw [hH.2, Ideal.mem_inf, dens_singleton, Ideal.mem_span_singleton] at this
    exact this.2
  refine (mapM_spec (P := fun h q => Poly.Clean (Fin k) q ∧
    (Poly.den (Fin k) h : MvPolynomial (Fin k) K) = Poly.den (Fin k) f * Poly.den (Fin k) q)
    fun h hm => ?_).imp fun Q hQ => ⟨fun q hq => ?_, fun g => ⟨fun hgm => ?_, fun hgm => ?_⟩⟩
  · refine (C136_divide_one hO h f (hH.1 h hm) hf.1 hf.2).bind ?_
    rintro ⟨r, qs⟩ ⟨q, hqs, hq, hr, hz, he, -⟩
    subst hqs
    refine ⟨hq, ?_⟩
    rw [he, hz.mpr (hdvd h hm), Poly.den_nil, add_zero, mul_comm]
  · obtain ⟨h, -, hq⟩ := forall₂_mem_right hQ hq
    exact hq.1
  · have : Poly.den (Fin k) f * g ∈ Ideal.span (dens (Fin k) H : Set (MvPolynomial (Fin k) K)) := by
      induction hgm using Submodule.span_induction with
      | mem x hx =>
        obtain ⟨q, hq, rfl⟩ := hx
        obtain ⟨h, hm, hq⟩ := forall₂_mem_right hQ hq
        rw [← hq.2]
        exact Ideal.subset_span ⟨h, hm, rfl⟩
      | zero => rw [mul_zero]; exact Ideal.zero_mem _
      | add x y _ _ hx hy => rw [mul_add]; exact Ideal.add_mem _ hx hy
      | smul a x _ hx => rw [smul_eq_mul, mul_left_comm]; exact Ideal.mul_mem_left _ _ hx
    rw [hH.2, Ideal.mem_inf] at this
    exact this.1
  · have hin : Poly.den (Fin k) f * g ∈
        Ideal.span (dens (Fin k) H : Set (MvPolynomial (Fin k) K)) := by
      rw [hH.2, Ideal.mem_inf, dens_singleton, Ideal.mem_span_singleton]
      exact ⟨hgm, dvd_mul_right _ _⟩
    have key : ∀ x ∈ Ideal.span (dens (Fin k) H : Set (MvPolynomial (Fin k) K)),
        ∃ y ∈ Ideal.span (dens (Fin k) Q : Set (MvPolynomial (Fin k) K)), x = Poly.den (Fin k) f * y := by
      intro x hx
      induction hx using Submodule.span_induction with
      | mem x hx =>
        obtain ⟨h, hm, rfl⟩ := hx
        obtain ⟨q, hq, hhq⟩ := forall₂_mem_right hQ.flip hm
        exact ⟨_, Ideal.subset_span ⟨q, hq, rfl⟩, hhq.2⟩
      | zero => exact ⟨0, Ideal.zero_mem _, by rw [mul_zero]⟩
      | add x y _ _ hx hy =>
        obtain ⟨a, ha, rfl⟩ := hx
        obtain ⟨b, hb, rfl⟩ := hy
        exact ⟨a + b, Ideal.add_mem _ ha hb, by rw [mul_add]⟩
      | smul c x _ hx =>
        obtain ⟨a, ha, rfl⟩ := hx
        exact ⟨c * a, Ideal.mul_mem_left _ _ ha, by rw [smul_eq_mul, mul_left_comm]⟩
    obtain ⟨y, hy, e⟩ := key _ hin
    rw [mul_left_cancel₀ hf.2 e]
    exact hy

end

/-! ### Examples -/

/-- `x`. -/
def opX : Poly Rational := [⟨⟨1, 1⟩, [1]⟩]
/-- `y`. -/
def opY : Poly Rational := [⟨⟨1, 1⟩, [0, 1]⟩]
/-- `x y`. -/
def opXY : Poly Rational := [⟨⟨1, 1⟩, [1, 1]⟩]
/-- `x^2`. -/
def opXX : Poly Rational := [⟨⟨1, 1⟩, [2]⟩]

/-- The hypotheses of the theorems hold for these polynomials. -/
example : letI := Rational.field .debug
    letI := Rational.lawful
    ∀ g ∈ [opX, opY, opXY, opXX], Poly.Clean (Fin 2) g ∧
      Poly.den (Fin 2) g ≠ (0 : MvPolynomial (Fin 2) ℚ) := by
  exact sampleGens (by decide)

/-- `x` is in the radical of `(x^2)`, `y` is not. -/
example : letI := Rational.field .debug
    rabinowitsch (OrdKind.grLex.order .debug) 2 [opXX] opX = .ok [[⟨⟨1, 1⟩, []⟩]] ∧
    rabinowitsch (OrdKind.grLex.order .debug) 2 [opXX] opY =
      .ok [opXX, [⟨⟨1, 1⟩, []⟩, ⟨⟨-1, 1⟩, [0, 1, 1]⟩]] := by
  let _ := Rational.field .debug
  exact ⟨bind_eq_ok.mpr ⟨[⟨⟨1, 1⟩, []⟩, ⟨⟨-1, 1⟩, [1, 0, 1]⟩], by decide +kernel,
      (Computer.buchbergerAlgorithmN_approx 30 _).eq (by decide +kernel) (by simp)⟩,
    bind_eq_ok.mpr ⟨[⟨⟨1, 1⟩, []⟩, ⟨⟨-1, 1⟩, [0, 1, 1]⟩], by decide +kernel,
      (Computer.buchbergerAlgorithmN_approx 30 _).eq (by decide +kernel) (by simp)⟩⟩

/-- The saturation of `(x y)` by `x` is `(y)`. -/
example : letI := Rational.field .debug
    saturate 2 [opXY] opX = .ok [opY] := by
  let _ := Rational.field .debug
  exact bind_eq_ok.mpr ⟨[[⟨⟨1, 1⟩, []⟩, ⟨⟨-1, 1⟩, [1, 0, 1]⟩], opY],
    bind_eq_ok.mpr ⟨[⟨⟨1, 1⟩, []⟩, ⟨⟨-1, 1⟩, [1, 0, 1]⟩], by decide +kernel,
      (Computer.buchbergerAlgorithmN_approx 30 _).eq (by decide +kernel) (by simp)⟩, by decide +kernel⟩

theorem intersect_example : letI := Rational.field .debug
    intersect 2 [opXX, opXY] [opY] = .ok [opXY] := by
  let _ := Rational.field .debug
  exact bind_eq_ok.mpr ⟨[[⟨⟨1, 1⟩, [2, 0, 1]⟩], [⟨⟨1, 1⟩, [1, 1, 1]⟩]], by decide +kernel,
    bind_eq_ok.mpr ⟨[[⟨⟨1, 1⟩, [0, 1]⟩, ⟨⟨-1, 1⟩, [0, 1, 1]⟩]], by decide +kernel,
    bind_eq_ok.mpr ⟨[[⟨⟨1, 1⟩, [2, 0, 1]⟩], [⟨⟨1, 1⟩, [0, 1]⟩, ⟨⟨-1, 1⟩, [0, 1, 1]⟩], opXY],
      (Computer.buchbergerAlgorithmN_approx 30 _).eq (by decide +kernel) (by simp), by decide +kernel⟩⟩⟩

/-- The quotient of `(x^2, x y)` by `y` is `(x)`. -/
example : letI := Rational.field .debug
    quotientBy (OrdKind.lex.order .debug) 2 [opXX, opXY] opY = .ok [opX] := by
  let _ := Rational.field .debug
  refine bind_eq_ok.mpr ⟨_, intersect_example, ?_⟩
  rw [List.mapM_cons]
  refine bind_eq_ok.mpr ⟨opX, bind_eq_ok.mpr ⟨([], [opX]),
    (Computer.divideN_approx 30 _ _).eq (by decide +kernel) (by simp), rfl⟩, rfl⟩

end Verif
