import Verif.Props.IdealOps
import Verif.Props.Graded
import Mathlib.RingTheory.AlgebraicIndependent.Defs

/-!
# Properties C143–C144: relations between polynomials and subalgebras

With a new variable for each of the polynomials `f_1, …, f_r` in `n` variables, a `Lex` basis of the
`y_j - f_j` gives the polynomial relations between the `f_j` and decides membership in the algebra they
generate.  These are the programs and what they return.
-/

namespace Verif
open Res MvPolynomial LawfulRField

/-! ### The programs -/

section
variable {F : Type} [RField F]

/-- The `Polynomial::var(n + j, 1) - f_j`. -/
def graph (n : ℕ) (fs : List (Poly F)) : Res (List (Poly F)) :=
  fs.zipIdx.mapM fun x => Poly.sub (Poly.var (n + x.2) 1) x.1

/-- Their `Lex` basis. -/
def graphBasis (n : ℕ) (fs : List (Poly F)) : Res (List (Poly F)) := do
  let gs ← graph n fs
  Computer.buchbergerAlgorithm (OrdKind.lex.order .debug) gs

/-- Whether none of the first `n` variables occurs. -/
def onlyFrom (n : ℕ) (g : Poly F) : Bool :=
  g.all fun t => (List.range n).all fun i => t.mdeg.deg i = 0

/-- Generators of the relations. -/
def relations (n : ℕ) (fs : List (Poly F)) : Res (List (Poly F)) := do
  let G ← graphBasis n fs
  pure (G.filter (onlyFrom n))

/-- The remainder of `f`. -/
def express (n : ℕ) (fs : List (Poly F)) (f : Poly F) : Res (Poly F) := do
  let G ← graphBasis n fs
  let (r, _) ← Computer.divide (OrdKind.lex.order .debug) f G
  pure r

end

/-! ### The graph of a polynomial map -/

namespace PolyMap
variable {K : Type} [Field K] {n r : ℕ}

/-- The first `n` variables. -/
noncomputable def inl : MvPolynomial (Fin n) K →ₐ[K] MvPolynomial (Fin (n + r)) K :=
  rename (Fin.castAdd r)

/-- The last `r` variables. -/
noncomputable def inr : MvPolynomial (Fin r) K →ₐ[K] MvPolynomial (Fin (n + r)) K :=
  rename (Fin.natAdd n)

/-- The last variables replaced by the `f_j`. -/
noncomputable def put (f : Fin r → MvPolynomial (Fin n) K) :
    MvPolynomial (Fin (n + r)) K →ₐ[K] MvPolynomial (Fin n) K :=
  aeval (Fin.addCases (motive := fun _ => MvPolynomial (Fin n) K) X f)

/-- The first variables set to zero. -/
noncomputable def drop : MvPolynomial (Fin (n + r)) K →ₐ[K] MvPolynomial (Fin r) K :=
  aeval (Fin.addCases (motive := fun _ => MvPolynomial (Fin r) K) (fun _ => 0) X)

theorem put_inl (f : Fin r → MvPolynomial (Fin n) K) (p : MvPolynomial (Fin n) K) :
    put f (inl p) = p := by
  unfold put inl
  rw [aeval_rename]
  have : (Fin.addCases (motive := fun _ => MvPolynomial (Fin n) K) X f) ∘ Fin.castAdd r = X := by
    funext i
    simp
  rw [this, aeval_X_left, AlgHom.id_apply]

theorem put_inr (f : Fin r → MvPolynomial (Fin n) K) (p : MvPolynomial (Fin r) K) :
    put f (inr p) = aeval f p := by
  unfold put inr
  rw [aeval_rename]
  have : (Fin.addCases (motive := fun _ => MvPolynomial (Fin n) K) X f) ∘ Fin.natAdd n = f := by
    funext i
    simp
  rw [this]

theorem drop_inr (p : MvPolynomial (Fin r) K) : drop (inr p : MvPolynomial (Fin (n + r)) K) = p := by
  unfold drop inr
  rw [aeval_rename]
  have : (Fin.addCases (motive := fun _ => MvPolynomial (Fin r) K) (fun _ : Fin n => 0) X) ∘
      Fin.natAdd n = X := by
    funext i
    simp
  rw [this, aeval_X_left, AlgHom.id_apply]

/-- The ideal of the graph. -/
noncomputable def graphIdeal (f : Fin r → MvPolynomial (Fin n) K) :
    Ideal (MvPolynomial (Fin (n + r)) K) :=
  Ideal.span (Set.range fun j => inr (X j) - inl (f j))

theorem sub_put_mem (f : Fin r → MvPolynomial (Fin n) K) (p : MvPolynomial (Fin (n + r)) K) :
    p - inl (put f p) ∈ graphIdeal f := by
  have : (Ideal.Quotient.mkₐ K (graphIdeal f)) =
      (Ideal.Quotient.mkₐ K (graphIdeal f)).comp ((inl (r := r)).comp (put f)) := by
    refine MvPolynomial.algHom_ext fun i => ?_
    refine Fin.addCases (fun i => ?_) (fun j => ?_) i
    · have e : (X (Fin.castAdd r i) : MvPolynomial (Fin (n + r)) K) = inl (X i) := by
        unfold inl; rw [rename_X]
      rw [AlgHom.comp_apply, AlgHom.comp_apply, e, put_inl]
    · have e : (X (Fin.natAdd n j) : MvPolynomial (Fin (n + r)) K) = inr (X j) := by
        unfold inr; rw [rename_X]
      rw [AlgHom.comp_apply, AlgHom.comp_apply, e, put_inr, aeval_X]
      exact Ideal.Quotient.eq.mpr (Ideal.subset_span ⟨j, rfl⟩)
  exact Ideal.Quotient.eq.mp (DFunLike.congr_fun this p)

theorem mem_graphIdeal {f : Fin r → MvPolynomial (Fin n) K} {p : MvPolynomial (Fin (n + r)) K} :
    p ∈ graphIdeal f ↔ put f p = 0 := by
  constructor
  · intro h
    have : graphIdeal f ≤ RingHom.ker (put f) := by
      unfold graphIdeal
      rw [Ideal.span_le]
      rintro _ ⟨j, rfl⟩
      rw [SetLike.mem_coe, RingHom.mem_ker, map_sub, put_inl, put_inr, aeval_X, sub_self]
    exact this h
  · intro h
    have := sub_put_mem f p
    rwa [h, map_zero, sub_zero] at this

/-- Polynomials in the last variables. -/
theorem inr_drop {x : MvPolynomial (Fin (n + r)) K}
    (h : x ∈ supported K {i : Fin (n + r) | n ≤ i.val}) : inr (drop x) = x := by
  have : supported K {i : Fin (n + r) | n ≤ i.val} ≤
      AlgHom.equalizer ((inr (n := n)).comp drop) (AlgHom.id K (MvPolynomial (Fin (n + r)) K)) := by
    unfold supported
    rw [Algebra.adjoin_le_iff]
    rintro _ ⟨i, hi, rfl⟩
    rw [SetLike.mem_coe, AlgHom.mem_equalizer, AlgHom.comp_apply, AlgHom.id_apply]
    revert hi
    refine Fin.addCases (fun i hi => ?_) (fun j hj => ?_) i
    · have h1 : n ≤ i.val := hi
      have h2 := i.2
      omega
    · have e : (X (Fin.natAdd n j) : MvPolynomial (Fin (n + r)) K) = inr (X j) := by
        unfold inr; rw [rename_X]
      rw [e, drop_inr]
  exact this h

theorem inr_supported (p : MvPolynomial (Fin r) K) :
    (inr p : MvPolynomial (Fin (n + r)) K) ∈ supported K {i : Fin (n + r) | n ≤ i.val} := by
  rw [mem_supported]
  intro i hi
  unfold inr at hi
  classical
  obtain ⟨j, -, rfl⟩ := Finset.mem_image.mp (vars_rename _ _ hi)
  exact Nat.le_add_right n j.val

end PolyMap

section
variable {F : Type} [RField F] {K : Type} [Field K] [LawfulRField F K] {n : ℕ}
open PolyMap

theorem inVars_add {m : MDeg} (r : ℕ) (h : m.InVars (Fin n)) : m.InVars (Fin (n + r)) := fun i hi => by
  obtain ⟨s, hs⟩ := h i hi
  exact ⟨s.castAdd r, hs⟩

theorem clean_add {p : Poly F} (r : ℕ) (h : Poly.Clean (Fin n) p) : Poly.Clean (Fin (n + r)) p :=
  ⟨fun t ht => ⟨⟨(h.terms t ht).wf, (h.terms t ht).mdeg, inVars_add r (h.terms t ht).vars⟩,
    (h.terms t ht).ne⟩, h.nodup⟩

theorem toF_add {m : MDeg} (r : ℕ) (h : m.InVars (Fin n)) :
    m.toF (Fin (n + r)) = (m.toF (Fin n)).mapDomain (Fin.castAdd r) := by
  ext i
  rw [MDeg.toF_apply]
  change m.deg i.val = _
  refine Fin.addCases (fun j => ?_) (fun j => ?_) i
  · rw [Finsupp.mapDomain_apply (Fin.castAdd_injective n r), MDeg.toF_apply]
    rfl
  · rw [Finsupp.mapDomain_of_notMem_range _ _ (by
      rintro ⟨k, hk⟩
      have := congrArg Fin.val hk
      have hk := k.2
      simp only [Fin.val_castAdd, Fin.val_natAdd] at this
      omega)]
    by_contra hc
    obtain ⟨s, hs⟩ := h _ hc
    have hs : s.val = n + j.val := hs
    have := s.2
    omega

theorem den_add {p : Poly F} (r : ℕ) (h : ∀ t ∈ p, t.mdeg.InVars (Fin n)) :
    (Poly.den (Fin (n + r)) p : MvPolynomial (Fin (n + r)) K) = inl (Poly.den (Fin n) p) := by
  induction p with
  | nil => simp
  | cons t p ih =>
    rw [Poly.den_cons, Poly.den_cons, map_add, ih fun u hu => h u (by simp [hu])]
    congr 1
    unfold Term.den inl
    rw [rename_monomial, toF_add r (h t (by simp))]

theorem var_clean_den (i : Fin n) : Poly.Clean (Fin n) (Poly.var i.val 1 : Poly F) ∧
    (Poly.den (Fin n) (Poly.var i.val 1 : Poly F) : MvPolynomial (Fin n) K) = X i := by
  have hc : (MDeg.var i.val 1).Clean := MDeg.var_clean i.val 1 (by omega)
  have hv : (MDeg.var i.val 1).InVars (Fin n) := by
    intro j hj
    rw [MDeg.deg_var] at hj
    by_cases h : j = i.val
    · exact ⟨i, h.symm⟩
    · rw [if_neg h] at hj; exact absurd rfl hj
  have e : (Poly.var i.val 1 : Poly F) = [Term.monic (MDeg.var i.val 1)] := rfl
  rw [e]
  refine ⟨Poly.clean_singleton.mpr (Term.monic_clean hc hv), ?_⟩
  rw [Poly.den_cons, Poly.den_nil, add_zero, Term.den_monic]
  unfold X
  refine congrArg (fun e => monomial e (1 : K)) (Finsupp.ext fun j => ?_)
  rw [MDeg.toF_apply, MDeg.deg_var, Finsupp.single_apply]
  change (if j.val = i.val then 1 else 0) = _
  refine if_congr ?_ rfl rfl
  rw [Fin.ext_iff]
  exact eq_comm

/-- The polynomials given by a list. -/
noncomputable def denFn (n : ℕ) (fs : List (Poly F)) (j : Fin fs.length) : MvPolynomial (Fin n) K :=
  Poly.den (Fin n) fs[j]

theorem graph_spec (fs : List (Poly F)) (hf : ∀ f ∈ fs, Poly.Clean (Fin n) f) :
    Spec (PolyPanic F) (graph n fs) (fun gs =>
      (∀ g ∈ gs, Poly.Clean (Fin (n + fs.length)) g ∧
        Poly.den (Fin (n + fs.length)) g ≠ (0 : MvPolynomial (Fin (n + fs.length)) K)) ∧
      Ideal.span (dens (Fin (n + fs.length)) gs : Set (MvPolynomial (Fin (n + fs.length)) K)) =
        graphIdeal (denFn n fs)) := by
  unfold graph
  refine (mapM_spec (P := fun x g => Poly.Clean (Fin (n + fs.length)) g ∧
    ∃ j : Fin fs.length, x = (fs[j], j.val) ∧
      (Poly.den (Fin (n + fs.length)) g : MvPolynomial (Fin (n + fs.length)) K) =
        inr (X j) - inl (denFn n fs j)) ?_).imp ?_
  · rintro ⟨f, j⟩ hx
    obtain ⟨hj, hfj⟩ := List.mem_zipIdx' hx
    have hfm : f ∈ fs := hfj ▸ List.getElem_mem hj
    obtain ⟨hv, hvd⟩ := var_clean_den (F := F) (K := K) (Fin.natAdd n (⟨j, hj⟩ : Fin fs.length))
    refine (Poly.sub_spec hv (clean_add fs.length (hf f hfm))).mono polyPanic_allowed
      fun g hg => ⟨hg.1, ⟨j, hj⟩, by rw [hfj]; rfl, ?_⟩
    rw [hg.2, hvd, den_add _ (hf f hfm).vars]
    unfold denFn inr
    rw [rename_X, hfj]
    rfl
  · intro gs hgs
    refine ⟨fun g hg => ?_, congrArg Ideal.span ?_⟩
    · obtain ⟨x, hx, hc, j, -, hd⟩ := forall₂_mem_right hgs hg
      refine ⟨hc, fun h0 => ?_⟩
      rw [h0] at hd
      have := congrArg (put fun _ => denFn n fs j + 1) hd
      rw [map_zero, map_sub, put_inr, put_inl, aeval_X, add_sub_cancel_left] at this
      exact zero_ne_one this
    · ext x
      constructor
      · rintro ⟨g, hg, rfl⟩
        obtain ⟨x, hx, hc, j, -, hd⟩ := forall₂_mem_right hgs hg
        exact ⟨j, hd.symm⟩
      · rintro ⟨j, rfl⟩
        have hx : (fs[j], j.val) ∈ fs.zipIdx := by
          rw [List.mem_zipIdx_iff_getElem?]
          simp
        obtain ⟨g, hg, hc, j', he, hd⟩ := forall₂_mem_right hgs.flip hx
        have : j = j' := Fin.ext (congrArg Prod.snd he)
        subst this
        exact ⟨g, hg, hd.symm⟩

theorem onlyFrom_iff {g : Poly F} {r : ℕ} (hg : Poly.Clean (Fin (n + r)) g) :
    onlyFrom n g = true ↔
      (Poly.den (Fin (n + r)) g : MvPolynomial (Fin (n + r)) K) ∈
        supported K {i : Fin (n + r) | n ≤ i.val} := by
  unfold onlyFrom
  rw [List.all_eq_true, mem_supported_iff]
  simp only [List.all_eq_true, List.mem_range, decide_eq_true_eq]
  constructor
  · intro h e he i hi
    obtain ⟨t, ht, rfl⟩ := (Poly.mem_support_den hg).mp he
    by_contra hc
    exact hi (h t ht i.val (not_le.mp hc))
  · intro h t ht i hi
    by_contra hc
    have := h _ ((Poly.mem_support_den hg).mpr ⟨t, ht, rfl⟩) ⟨i, by omega⟩ hc
    have : n ≤ i := this
    omega

theorem graphBasis_spec (fs : List (Poly F)) (hf : ∀ f ∈ fs, Poly.Clean (Fin n) f) :
    Spec (PolyPanic F) (graphBasis n fs) (fun G => GenOk (Fin (n + fs.length)) G ∧
      IsGroebner (OrdKind.lex.mathlib (n + fs.length)) (graphIdeal (denFn n fs : _ → MvPolynomial _ K))
        (dens (Fin (n + fs.length)) G)) := by
  refine (graph_spec (K := K) fs hf).bind fun gs hgs => ?_
  refine (algorithm_spec (OrdKind.implements .lex _) gs hgs.1 (fun _ => True) trivial
    fun _ _ => trivial).imp fun G h => ⟨h.1, ?_⟩
  rw [← hgs.2]
  exact h.2.1

/-! ## C143 relations -/

/-- C143. The polynomials returned contain only the new variables, and a polynomial in the new
variables vanishes at `(f_1, …, f_r)` exactly when it is in the ideal they generate. -/
theorem C143_relations (fs : List (Poly F)) (hf : ∀ f ∈ fs, Poly.Clean (Fin n) f) :
    Spec (PolyPanic F) (relations n fs) (fun H => ∃ S : Set (MvPolynomial (Fin fs.length) K),
      (dens (Fin (n + fs.length)) H : Set (MvPolynomial (Fin (n + fs.length)) K)) =
        rename (Fin.natAdd n) '' S ∧
      ∀ p : MvPolynomial (Fin fs.length) K,
        aeval (fun j : Fin fs.length => (Poly.den (Fin n) fs[j] : MvPolynomial (Fin n) K)) p = 0 ↔
          p ∈ Ideal.span S) := by
  refine (graphBasis_spec (K := K) fs hf).bind fun G hG => ?_
  have hsup : ∀ g ∈ G.filter (onlyFrom n), (Poly.den (Fin (n + fs.length)) g :
      MvPolynomial (Fin (n + fs.length)) K) ∈ supported K {i : Fin (n + fs.length) | n ≤ i.val} := by
    intro g hg
    rw [List.mem_filter] at hg
    exact (onlyFrom_iff (hG.1 g hg.1).1).mp hg.2
  refine ⟨drop '' dens (Fin (n + fs.length)) (G.filter (onlyFrom n)), ?_, fun p => ?_⟩
  · rw [Set.image_image]
    change _ = (fun x => inr (drop x)) '' _
    have : Set.EqOn (fun x => inr (drop x)) id (dens (Fin (n + fs.length)) (G.filter (onlyFrom n)) :
        Set (MvPolynomial (Fin (n + fs.length)) K)) := by
      rintro _ ⟨g, hg, rfl⟩
      exact inr_drop (hsup g hg)
    rw [this.image_eq, Set.image_id]
  · change aeval (denFn n fs) p = 0 ↔ _
    rw [← put_inr, ← mem_graphIdeal]
    constructor
    · intro h
      have := (elimination (lex_eliminates n) hG.2 (inr p)).mp ⟨h, inr_supported p⟩
      rw [← drop_inr (n := n) p]
      clear h
      generalize inr (n := n) p = x at this
      induction this using Submodule.span_induction with
      | mem x hx =>
        obtain ⟨⟨g, hg, rfl⟩, hx⟩ := hx
        refine Ideal.subset_span ⟨_, ⟨g, ?_, rfl⟩, rfl⟩
        exact List.mem_filter.mpr ⟨hg, (onlyFrom_iff (hG.1 g hg).1).mpr hx⟩
      | zero => rw [map_zero]; exact Ideal.zero_mem _
      | add x y _ _ hx hy => rw [map_add]; exact Ideal.add_mem _ hx hy
      | smul a x _ hx =>
        rw [Algebra.smul_def, map_mul]
        exact Ideal.mul_mem_left _ _ hx
    · intro h
      have : Ideal.span (drop '' dens (Fin (n + fs.length)) (G.filter (onlyFrom n))) ≤
          (graphIdeal (denFn n fs : _ → MvPolynomial _ K)).comap (inr (n := n)) := by
        rw [Ideal.span_le]
        rintro _ ⟨_, ⟨g, hg, rfl⟩, rfl⟩
        rw [SetLike.mem_coe, Ideal.mem_comap]
        rw [inr_drop (hsup g hg)]
        exact hG.2.1 ⟨g, (List.mem_filter.mp hg).1, rfl⟩
      exact this h

/-- C143. The polynomials are algebraically independent exactly when there is no relation. -/
theorem C143_independent (fs : List (Poly F)) (hf : ∀ f ∈ fs, Poly.Clean (Fin n) f) :
    Spec (PolyPanic F) (relations n fs) (fun H => H = [] ↔
      AlgebraicIndependent K (fun j : Fin fs.length =>
        (Poly.den (Fin n) fs[j] : MvPolynomial (Fin n) K))) := by
  have hne : Spec (PolyPanic F) (relations n fs) (fun H => ∀ g ∈ H,
      Poly.den (Fin (n + fs.length)) g ≠ (0 : MvPolynomial (Fin (n + fs.length)) K)) := by
    refine (graphBasis_spec (K := K) fs hf).bind fun G hG g hg => ?_
    exact hG.1.den_ne (List.mem_filter.mp hg).1
  refine (hne.and (C143_relations (K := K) fs hf)).imp ?_
  rintro H ⟨h0, S, hS, hrel⟩
  rw [algebraicIndependent_iff]
  simp only [hrel]
  constructor
  · rintro rfl p hp
    have : S = ∅ := by
      have e : (dens (Fin (n + fs.length)) ([] : List (Poly F)) :
          Set (MvPolynomial (Fin (n + fs.length)) K)) = ∅ := by
        ext x
        constructor
        · rintro ⟨g, hg, -⟩
          cases hg
        · exact fun h => absurd h (Set.notMem_empty _)
      rw [e] at hS
      exact Set.image_eq_empty.mp hS.symm
    rw [this, Ideal.span_empty] at hp
    exact hp
  · intro h
    rcases H with _ | ⟨g, H⟩
    · rfl
    · have hg : (Poly.den (Fin (n + fs.length)) g : MvPolynomial (Fin (n + fs.length)) K) ∈
          rename (Fin.natAdd n) '' S := hS ▸ mem_dens (List.mem_cons_self ..)
      obtain ⟨p, hp, he⟩ := hg
      refine absurd ?_ (h0 g (List.mem_cons_self ..))
      rw [← he, h p (Ideal.subset_span hp), map_zero]

/-! ## C144 membership in a subalgebra -/

/-- C144. `f` is a polynomial in `f_1, …, f_r` exactly when the remainder contains only the new
variables; and then it says which polynomial. -/
theorem C144_subalgebra (fs : List (Poly F)) (hf : ∀ f ∈ fs, Poly.Clean (Fin n) f) (f : Poly F)
    (hfc : Poly.Clean (Fin n) f) :
    Spec (PolyPanic F) (express n fs f) (fun r =>
      ((Poly.den (Fin n) f : MvPolynomial (Fin n) K) ∈ Algebra.adjoin K (dens (Fin n) fs) ↔
        ∀ t ∈ r, ∀ i < n, t.mdeg.deg i = 0) ∧
      ∀ p : MvPolynomial (Fin fs.length) K,
        Poly.den (Fin (n + fs.length)) r = rename (Fin.natAdd n) p →
        aeval (fun j : Fin fs.length => (Poly.den (Fin n) fs[j] : MvPolynomial (Fin n) K)) p =
          Poly.den (Fin n) f) := by
  refine (graphBasis_spec (K := K) fs hf).bind fun G hG => ?_
  refine (divide_gens (OrdKind.implements .lex _).poly polyPanic_allowed (fun g h => (hG.1 g h).1)
    (clean_add fs.length hfc)).bind ?_
  rintro ⟨r, qs⟩ ⟨hr, hred, hmem, -⟩
  simp only at hr hred hmem
  rw [hG.2.span_eq, den_add _ hfc.vars] at hmem
  have hput : put (denFn n fs) (Poly.den (Fin (n + fs.length)) r) =
      (Poly.den (Fin n) f : MvPolynomial (Fin n) K) := by
    have := mem_graphIdeal.mp hmem
    rw [map_sub, put_inl, sub_eq_zero] at this
    exact this.symm
  have hsecond : ∀ p : MvPolynomial (Fin fs.length) K,
      Poly.den (Fin (n + fs.length)) r = inr (n := n) p →
        aeval (denFn n fs) p = (Poly.den (Fin n) f : MvPolynomial (Fin n) K) := by
    intro p hp
    rw [← hput, hp, put_inr]
  have hrange : (dens (Fin n) fs : Set (MvPolynomial (Fin n) K)) = Set.range (denFn n fs) := by
    ext x
    constructor
    · rintro ⟨g, hg, rfl⟩
      obtain ⟨j, hj, rfl⟩ := List.mem_iff_getElem.mp hg
      exact ⟨⟨j, hj⟩, rfl⟩
    · rintro ⟨j, rfl⟩
      exact ⟨fs[j], List.getElem_mem _, rfl⟩
  have honly : (∀ t ∈ r, ∀ i < n, t.mdeg.deg i = 0) ↔ onlyFrom n r = true := by
    unfold onlyFrom
    simp only [List.all_eq_true, List.mem_range, decide_eq_true_eq]
  refine ⟨?_, hsecond⟩
  rw [honly, onlyFrom_iff (K := K) hr, hrange, Algebra.adjoin_range_eq_range_aeval]
  constructor
  · rintro ⟨p, hp⟩
    have hp : aeval (denFn n fs) p = (Poly.den (Fin n) f : MvPolynomial (Fin n) K) := hp
    obtain ⟨s, hs, hss⟩ := exists_standard hG.1 hG.2 (inr (n := n) p)
    have hsS : s ∈ supported K {i : Fin (n + fs.length) | n ≤ i.val} := by
      rw [mem_supported_iff]
      intro e he
      have h1 := ((OrdKind.lex.mathlib _).le_degree he).trans (standard_degree_le hG.2 hs hss)
      refine lex_eliminates n _ _ h1 ?_
      by_cases h0 : inr (n := n) p = 0
      · rw [h0, MonomialOrder.degree_zero]
        intro i hi
        exact absurd rfl hi
      · exact mem_supported_iff.mp (inr_supported p) _ ((OrdKind.lex.mathlib _).degree_mem_support h0)
    have : Poly.den (Fin (n + fs.length)) r = s := by
      refine IsGroebner.unique hG.2 hG.2 ?_ (fun e he => (hred e he).2) ?_
      · rw [mem_graphIdeal, map_sub, hput, ← hp, ← put_inr]
        rw [← map_sub]
        exact mem_graphIdeal.mp hs
      · rintro e he _ ⟨g, hg, rfl⟩ -
        exact hss e he g hg
    rw [this]
    exact hsS
  · intro h
    exact ⟨drop (Poly.den (Fin (n + fs.length)) r), hsecond _ (inr_drop h).symm⟩

end

/-! ### Examples: `x^2`, `x y` and `y^2` -/

/-- `y^2`. -/
def opYY : Poly Rational := [⟨⟨1, 1⟩, [0, 2]⟩]

/-- The basis of `u - x^2`, `v - x y`, `w - y^2`. -/
def squaresBasis : List (Poly Rational) :=
  [[⟨⟨1, 1⟩, [0, 0, 1]⟩, ⟨⟨-1, 1⟩, [2]⟩], [⟨⟨1, 1⟩, [0, 0, 0, 1]⟩, ⟨⟨-1, 1⟩, [1, 1]⟩],
    [⟨⟨1, 1⟩, [0, 0, 0, 0, 1]⟩, ⟨⟨-1, 1⟩, [0, 2]⟩], [⟨⟨1, 1⟩, [1, 0, 0, 1]⟩, ⟨⟨-1, 1⟩, [0, 1, 1]⟩],
    [⟨⟨1, 1⟩, [1, 0, 0, 0, 1]⟩, ⟨⟨-1, 1⟩, [0, 1, 0, 1]⟩],
    [⟨⟨1, 1⟩, [0, 0, 1, 0, 1]⟩, ⟨⟨-1, 1⟩, [0, 0, 0, 2]⟩]]

theorem squares_basis : letI := Rational.field .debug
    graphBasis 2 [opXX, opXY, opYY] = .ok squaresBasis := by
  let _ := Rational.field .debug
  exact bind_eq_ok.mpr ⟨squaresBasis.take 3, by decide +kernel,
    (Computer.buchbergerAlgorithmN_approx 60 _).eq (by decide +kernel) (by simp)⟩

/-- One relation, `u w - v^2`. -/
example : letI := Rational.field .debug
    letI := Rational.lawful
    (∀ f ∈ [opXX, opXY, opYY], Poly.Clean (Fin 2) f) ∧
    relations 2 [opXX, opXY, opYY] = .ok [[⟨⟨1, 1⟩, [0, 0, 1, 0, 1]⟩, ⟨⟨-1, 1⟩, [0, 0, 0, 2]⟩]] := by
  let _ := Rational.field .debug
  exact ⟨fun f hf => (sampleGens (k := 2) (by decide) f hf).1,
    bind_eq_ok.mpr ⟨_, squares_basis, by decide +kernel⟩⟩

/-- `x^3 y + 1` is `u v + 1`, and `x` is not a polynomial in `x^2, x y, y^2`. -/
example : letI := Rational.field .debug
    express 2 [opXX, opXY, opYY] [⟨⟨1, 1⟩, [3, 1]⟩, ⟨⟨1, 1⟩, []⟩] =
      .ok [⟨⟨1, 1⟩, [0, 0, 1, 1]⟩, ⟨⟨1, 1⟩, []⟩] ∧
    express 2 [opXX, opXY, opYY] opX = .ok opX := by
  let _ := Rational.field .debug
  exact ⟨bind_eq_ok.mpr ⟨_, squares_basis, bind_eq_ok.mpr ⟨([⟨⟨1, 1⟩, [0, 0, 1, 1]⟩, ⟨⟨1, 1⟩, []⟩],
      [[⟨⟨-1, 1⟩, [1, 1]⟩], [⟨⟨-1, 1⟩, [0, 0, 1]⟩], [], [], [], []]),
      (Computer.divideN_approx 60 _ _).eq (by decide +kernel) (by simp), rfl⟩⟩,
    bind_eq_ok.mpr ⟨_, squares_basis, bind_eq_ok.mpr ⟨(opX, [[], [], [], [], [], []]),
      (Computer.divideN_approx 60 _ _).eq (by decide +kernel) (by simp), rfl⟩⟩⟩

end Verif
