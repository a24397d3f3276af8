import Verif.Props.PolyMap
import Verif.Props.Finite

/-!
# Property C218: relations, values and subalgebras modulo an ideal

The programs of C143 and C144 with the generators of an ideal `I` added to the `y_j - f_j`.  They find
the relations between the `f_j` modulo `I`: the equations of the set of values `(f_1(a), …, f_r(a))` at
the solutions `a`.
-/

namespace Verif
open Res MvPolynomial LawfulRField

section
variable {F : Type} [RField F]

/-- The `Lex` basis of the generators and the `y_j - f_j`. -/
def graphBasisMod (n : ℕ) (gens fs : List (Poly F)) : Res (List (Poly F)) := do
  let gs ← graph n fs
  Computer.buchbergerAlgorithm (OrdKind.lex.order .debug) (gens ++ gs)

/-- Its elements without the first `n` variables. -/
def relationsMod (n : ℕ) (gens fs : List (Poly F)) : Res (List (Poly F)) := do
  let G ← graphBasisMod n gens fs
  pure (G.filter (onlyFrom n))

/-- The remainder of `f`. -/
def expressMod (n : ℕ) (gens fs : List (Poly F)) (f : Poly F) : Res (Poly F) := do
  let G ← graphBasisMod n gens fs
  let (r, _) ← Computer.divide (OrdKind.lex.order .debug) f G
  pure r

end

namespace PolyMap
variable {K : Type} [Field K] {n r : ℕ}

theorem mem_graphIdealMod {I : Ideal (MvPolynomial (Fin n) K)} {f : Fin r → MvPolynomial (Fin n) K}
    {p : MvPolynomial (Fin (n + r)) K} :
    p ∈ I.map (inl (r := r)) ⊔ graphIdeal f ↔ put f p ∈ I := by
  constructor
  · intro h
    have : I.map (inl (r := r)) ⊔ graphIdeal f ≤ I.comap (put f) := by
      refine sup_le ?_ fun q hq => ?_
      · rw [Ideal.map_le_iff_le_comap]
        intro q hq
        rw [Ideal.mem_comap, Ideal.mem_comap, put_inl]
        exact hq
      · rw [Ideal.mem_comap, mem_graphIdeal.mp hq]
        exact I.zero_mem
    exact this h
  · intro h
    have := sub_put_mem f p
    rw [← sub_add_cancel p (inl (put f p))]
    exact Ideal.add_mem _ (Ideal.mem_sup_right this) (Ideal.mem_sup_left (Ideal.mem_map_of_mem _ h))

end PolyMap

section
variable {F : Type} [RField F] {K : Type} [Field K] [LawfulRField F K] {n : ℕ}
open PolyMap

theorem graphMod_spec (gens fs : List (Poly F))
    (hg : ∀ g ∈ gens, Poly.Clean (Fin n) g ∧ Poly.den (Fin n) g ≠ (0 : MvPolynomial (Fin n) K))
    (hf : ∀ f ∈ fs, Poly.Clean (Fin n) f) :
    Spec (PolyPanic F) (graph n fs) (fun gs =>
      (∀ g ∈ gens ++ gs, Poly.Clean (Fin (n + fs.length)) g ∧
        Poly.den (Fin (n + fs.length)) g ≠ (0 : MvPolynomial (Fin (n + fs.length)) K)) ∧
      Ideal.span (dens (Fin (n + fs.length)) (gens ++ gs) :
          Set (MvPolynomial (Fin (n + fs.length)) K)) =
        (Ideal.span (dens (Fin n) gens)).map (inl (r := fs.length)) ⊔ graphIdeal (denFn n fs)) := by
  refine (graph_spec (K := K) fs hf).imp fun gs hgs => ⟨fun g hgm => ?_, ?_⟩
  · rcases List.mem_append.mp hgm with h | h
    · refine ⟨clean_add _ (hg g h).1, fun h0 => (hg g h).2 ?_⟩
      rw [den_add _ (hg g h).1.vars] at h0
      have := congrArg (put fun _ => (0 : MvPolynomial (Fin n) K)) h0
      rwa [put_inl, map_zero] at this
    · exact hgs.1 g h
  · rw [dens_append, Ideal.span_union, hgs.2, Ideal.map_span]
    congr 2
    ext x
    constructor
    · rintro ⟨g, hgm, rfl⟩
      exact ⟨_, mem_dens hgm, (den_add _ (hg g hgm).1.vars).symm⟩
    · rintro ⟨_, ⟨g, hgm, rfl⟩, rfl⟩
      exact ⟨g, hgm, (den_add _ (hg g hgm).1.vars).symm⟩

theorem graphBasisMod_spec (gens fs : List (Poly F))
    (hg : ∀ g ∈ gens, Poly.Clean (Fin n) g ∧ Poly.den (Fin n) g ≠ (0 : MvPolynomial (Fin n) K))
    (hf : ∀ f ∈ fs, Poly.Clean (Fin n) f) :
    Spec (PolyPanic F) (graphBasisMod n gens fs) (fun G => GenOk (Fin (n + fs.length)) G ∧
      IsGroebner (OrdKind.lex.mathlib (n + fs.length))
        ((Ideal.span (dens (Fin n) gens)).map (inl (r := fs.length)) ⊔
          graphIdeal (denFn n fs : _ → MvPolynomial _ K))
        (dens (Fin (n + fs.length)) G) ∧
      ((zeros K n gens).Finite → ∀ a : Fin (n + fs.length) → AlgebraicClosure K,
        (∀ g ∈ G, (Poly.den _ g : MvPolynomial (Fin (n + fs.length)) K) ∈
            supported K {i : Fin (n + fs.length) | n ≤ i.val} →
          aeval a (Poly.den _ g : MvPolynomial (Fin (n + fs.length)) K) = 0) →
        ∃ x : Fin (n + fs.length) → AlgebraicClosure K,
          (∀ i : Fin (n + fs.length), n ≤ i.val → x i = a i) ∧
          ∀ p ∈ (Ideal.span (dens (Fin n) gens)).map (inl (r := fs.length)) ⊔
            graphIdeal (denFn n fs : _ → MvPolynomial _ K), aeval x p = 0)) := by
  refine (graphMod_spec (K := K) gens fs hg hf).bind fun gs hgs => ?_
  have hO := OrdKind.implements .lex (n + fs.length)
  refine ((algorithm_spec hO (gens ++ gs) hgs.1 (fun _ => True) trivial fun _ _ => trivial).and
    (C153_extension (K := K) (gens ++ gs) hgs.1)).imp fun G h => ⟨h.1.1, ?_, fun hfin a ha => ?_⟩
  · rw [← hgs.2]
    exact h.1.2.1
  · obtain ⟨x, hx, hx'⟩ := h.2 (by
      change (zeros K (n + fs.length) (gens ++ gs)).Finite
      rw [zeros_eq, hgs.2]
      refine Set.Finite.of_finite_image (f := fun x : Fin (n + fs.length) → AlgebraicClosure K =>
        fun i => x (Fin.castAdd _ i)) (hfin.subset ?_) ?_
      · rintro _ ⟨x, hx, rfl⟩ g hgm
        have := hx _ (Ideal.mem_sup_left (Ideal.mem_map_of_mem _ (Ideal.subset_span (mem_dens hgm))))
        unfold inl at this
        rw [aeval_rename] at this
        exact this
      · intro x hx y hy hxy
        have hxy : ∀ i : Fin n, x (Fin.castAdd _ i) = y (Fin.castAdd _ i) := congrFun hxy
        funext i
        refine Fin.addCases hxy (fun j => ?_) i
        have key : ∀ z ∈ zeroLocus (AlgebraicClosure K)
            ((Ideal.span (dens (Fin n) gens)).map (inl (r := fs.length)) ⊔
              graphIdeal (denFn n fs : _ → MvPolynomial _ K)),
            z (Fin.natAdd n j) = aeval (fun i => z (Fin.castAdd _ i)) (denFn (K := K) n fs j) := by
          intro z hz
          have := hz _ (Ideal.mem_sup_right (Ideal.subset_span ⟨j, rfl⟩))
          unfold inl inr at this
          beta_reduce at this
          rw [rename_X, map_sub, aeval_X, aeval_rename, sub_eq_zero] at this
          exact this
        rw [key x hx, key y hy, funext hxy]) n a ha
    refine ⟨x, hx, fun p hp => ?_⟩
    rw [← hgs.2] at hp
    have : Ideal.span (dens (Fin (n + fs.length)) (gens ++ gs)) ≤
        RingHom.ker (aeval x : MvPolynomial (Fin (n + fs.length)) K →ₐ[K] AlgebraicClosure K) := by
      rw [Ideal.span_le]
      rintro _ ⟨g', hg', rfl⟩
      exact hx' g' hg'
    exact this hp

/-- What the relations are, and, with finitely many solutions, their zeros. -/
theorem relationsMod_spec (gens fs : List (Poly F))
    (hg : ∀ g ∈ gens, Poly.Clean (Fin n) g ∧ Poly.den (Fin n) g ≠ (0 : MvPolynomial (Fin n) K))
    (hf : ∀ f ∈ fs, Poly.Clean (Fin n) f) :
    Spec (PolyPanic F) (relationsMod n gens fs) (fun H =>
      ∃ S : Set (MvPolynomial (Fin fs.length) K),
        (dens (Fin (n + fs.length)) H : Set (MvPolynomial (Fin (n + fs.length)) K)) =
          rename (Fin.natAdd n) '' S ∧
        (∀ p : MvPolynomial (Fin fs.length) K, aeval (denFn n fs) p ∈
          Ideal.span (dens (Fin n) gens : Set (MvPolynomial (Fin n) K)) ↔ p ∈ Ideal.span S) ∧
        ((zeros K n gens).Finite → ∀ c : Fin fs.length → AlgebraicClosure K,
          (∀ p ∈ S, aeval c p = 0) → ∃ a ∈ zeros K n gens, ∀ j, aeval a (denFn (K := K) n fs j) = c j)) := by
  refine (graphBasisMod_spec (K := K) gens fs hg hf).bind fun G hG => ?_
  have hsup : ∀ g ∈ G.filter (onlyFrom n), (Poly.den (Fin (n + fs.length)) g :
      MvPolynomial (Fin (n + fs.length)) K) ∈ supported K {i : Fin (n + fs.length) | n ≤ i.val} := by
    intro g hg
    rw [List.mem_filter] at hg
    exact (onlyFrom_iff (hG.1 g hg.1).1).mp hg.2
  refine ⟨drop '' dens (Fin (n + fs.length)) (G.filter (onlyFrom n)), ?_, fun p => ?_, ?_⟩
  · rw [Set.image_image]
    change _ = (fun x => inr (drop x)) '' _
    have : Set.EqOn (fun x => inr (drop x)) id (dens (Fin (n + fs.length)) (G.filter (onlyFrom n)) :
        Set (MvPolynomial (Fin (n + fs.length)) K)) := by
      rintro _ ⟨g, hg, rfl⟩
      exact inr_drop (hsup g hg)
    rw [this.image_eq, Set.image_id]
  · rw [← put_inr, ← mem_graphIdealMod]
    constructor
    · intro h
      have := (elimination (lex_eliminates n) hG.2.1 (inr p)).mp ⟨h, inr_supported p⟩
      rw [← drop_inr (n := n) p]
      clear h
      generalize inr (n := n) p = x at this
      induction this using Submodule.span_induction with
      | mem x hx =>
        obtain ⟨⟨g, hg, rfl⟩, hx⟩ := hx
        refine Ideal.subset_span ⟨_, ⟨g, ?_, rfl⟩, rfl⟩
        exact List.mem_filter.mpr ⟨hg, (onlyFrom_iff (hG.1 g hg).1).mpr hx⟩
      | zero => rw [map_zero]; exact Ideal.zero_mem _
      | add x y _ _ hx hy => rw [map_add]; exact Ideal.add_mem _ hx hy
      | smul a x _ hx =>
        rw [Algebra.smul_def, map_mul]
        exact Ideal.mul_mem_left _ _ hx
    · intro h
      have : Ideal.span (drop '' dens (Fin (n + fs.length)) (G.filter (onlyFrom n))) ≤
          ((Ideal.span (dens (Fin n) gens)).map (inl (r := fs.length)) ⊔
            graphIdeal (denFn n fs : _ → MvPolynomial _ K)).comap (inr (n := n)) := by
        rw [Ideal.span_le]
        rintro _ ⟨_, ⟨g, hg, rfl⟩, rfl⟩
        rw [SetLike.mem_coe, Ideal.mem_comap]
        rw [inr_drop (hsup g hg)]
        exact hG.2.1.1 ⟨g, (List.mem_filter.mp hg).1, rfl⟩
      exact this h
  · intro hfin c hc
    let b : Fin (n + fs.length) → AlgebraicClosure K :=
      Fin.addCases (motive := fun _ => AlgebraicClosure K) (fun _ => 0) c
    have hb : ∀ q : MvPolynomial (Fin fs.length) K, aeval b (inr (n := n) q) = aeval c q := by
      intro q
      unfold inr
      rw [aeval_rename]
      congr 2
      funext j
      simp [b]
    obtain ⟨x, hx, hx'⟩ := hG.2.2 hfin b (fun g hgm hgs => by
      have hgf : g ∈ G.filter (onlyFrom n) :=
        List.mem_filter.mpr ⟨hgm, (onlyFrom_iff (hG.1 g hgm).1).mpr hgs⟩
      rw [← inr_drop hgs, hb]
      exact hc _ ⟨_, mem_dens hgf, rfl⟩)
    refine ⟨fun i => x (Fin.castAdd _ i), fun g hgm => ?_, fun j => ?_⟩
    · have := hx' _ (Ideal.mem_sup_left (Ideal.mem_map_of_mem _ (Ideal.subset_span (mem_dens hgm))))
      unfold inl at this
      rw [aeval_rename] at this
      exact this
    · have := hx' _ (Ideal.mem_sup_right (Ideal.subset_span ⟨j, rfl⟩))
      unfold inl inr at this
      beta_reduce at this
      rw [rename_X, map_sub, aeval_X, aeval_rename, sub_eq_zero] at this
      refine this.symm.trans ((hx _ (Nat.le_add_right n j.val)).trans ?_)
      simp [b]

/-- C218 (relations). The polynomials returned contain only the new variables, and a polynomial in the
new variables is in the ideal they generate exactly when its value at `(f_1, …, f_r)` is in `I`. -/
theorem C218_relations (gens fs : List (Poly F))
    (hg : ∀ g ∈ gens, Poly.Clean (Fin n) g ∧ Poly.den (Fin n) g ≠ (0 : MvPolynomial (Fin n) K))
    (hf : ∀ f ∈ fs, Poly.Clean (Fin n) f) :
    Spec (PolyPanic F) (relationsMod n gens fs) (fun H =>
      ∃ S : Set (MvPolynomial (Fin fs.length) K),
        (dens (Fin (n + fs.length)) H : Set (MvPolynomial (Fin (n + fs.length)) K)) =
          rename (Fin.natAdd n) '' S ∧
        ∀ p : MvPolynomial (Fin fs.length) K, p ∈ Ideal.span S ↔
          aeval (fun j : Fin fs.length => (Poly.den (Fin n) fs[j] : MvPolynomial (Fin n) K)) p ∈
            Ideal.span (dens (Fin n) gens)) :=
  (relationsMod_spec (K := K) gens fs hg hf).imp fun _ ⟨S, hS, h, _⟩ => ⟨S, hS, fun p => (h p).symm⟩

/-- C218 (values). If the generators have finitely many common zeros, then the common zeros of the
relations are exactly the tuples of values of the `f_j` at them. -/
theorem C218_values (gens fs : List (Poly F))
    (hg : ∀ g ∈ gens, Poly.Clean (Fin n) g ∧ Poly.den (Fin n) g ≠ (0 : MvPolynomial (Fin n) K))
    (hf : ∀ f ∈ fs, Poly.Clean (Fin n) f) (hfin : (zeros K n gens).Finite) :
    Spec (PolyPanic F) (relationsMod n gens fs) (fun H =>
      ∃ S : Set (MvPolynomial (Fin fs.length) K),
        (dens (Fin (n + fs.length)) H : Set (MvPolynomial (Fin (n + fs.length)) K)) =
          rename (Fin.natAdd n) '' S ∧
        {c : Fin fs.length → AlgebraicClosure K | ∀ p ∈ S, aeval c p = 0} =
          (fun a j => aeval a (Poly.den (Fin n) fs[j] : MvPolynomial (Fin n) K)) ''
            {a : Fin n → AlgebraicClosure K |
              ∀ g ∈ gens, aeval a (Poly.den (Fin n) g : MvPolynomial (Fin n) K) = 0}) := by
  refine (relationsMod_spec (K := K) gens fs hg hf).imp ?_
  rintro H ⟨S, hS, hrel, hval⟩
  refine ⟨S, hS, Set.Subset.antisymm (fun c hc => ?_) ?_⟩
  · obtain ⟨a, ha, hac⟩ := hval hfin c hc
    exact ⟨a, ha, funext hac⟩
  · rintro _ ⟨a, ha, rfl⟩ p hp
    have h1 := (hrel p).mpr (Ideal.subset_span hp)
    have ha : a ∈ zeros K n gens := ha
    rw [zeros_eq] at ha
    have h2 := ha _ h1
    rw [comp_aeval_apply] at h2
    exact h2

/-- C218 (closure). In general the common zeros of the relations are the smallest set given by equations
over `K` that contains all the values. -/
theorem C218_closure (gens fs : List (Poly F))
    (hg : ∀ g ∈ gens, Poly.Clean (Fin n) g ∧ Poly.den (Fin n) g ≠ (0 : MvPolynomial (Fin n) K))
    (hf : ∀ f ∈ fs, Poly.Clean (Fin n) f) :
    Spec (PolyPanic F) (relationsMod n gens fs) (fun H =>
      ∃ S : Set (MvPolynomial (Fin fs.length) K),
        (dens (Fin (n + fs.length)) H : Set (MvPolynomial (Fin (n + fs.length)) K)) =
          rename (Fin.natAdd n) '' S ∧
        ∀ c : Fin fs.length → AlgebraicClosure K, (∀ p ∈ S, aeval c p = 0) ↔
          ∀ q : MvPolynomial (Fin fs.length) K,
            (∀ a : Fin n → AlgebraicClosure K,
              (∀ g ∈ gens, aeval a (Poly.den (Fin n) g : MvPolynomial (Fin n) K) = 0) →
              aeval (fun j : Fin fs.length =>
                aeval a (Poly.den (Fin n) fs[j] : MvPolynomial (Fin n) K)) q = 0) →
            aeval c q = 0) := by
  refine (relationsMod_spec (K := K) gens fs hg hf).imp ?_
  rintro H ⟨S, hS, hrel, -⟩
  refine ⟨S, hS, fun c => ⟨fun hc q hq => ?_, fun h p hp => h p fun a ha => ?_⟩⟩
  · have hrad : aeval (denFn n fs) q ∈
        (Ideal.span (dens (Fin n) gens : Set (MvPolynomial (Fin n) K))).radical := by
      rw [← vanishingIdeal_zeroLocus_eq_radical (K := AlgebraicClosure K), mem_vanishingIdeal_iff]
      intro a ha
      rw [← zeros_eq] at ha
      rw [comp_aeval_apply]
      exact hq a ha
    obtain ⟨k, hk⟩ := hrad
    rw [← map_pow, hrel] at hk
    have : Ideal.span S ≤
        RingHom.ker (aeval c : MvPolynomial (Fin fs.length) K →ₐ[K] AlgebraicClosure K) := by
      rw [Ideal.span_le]
      exact fun p hp => hc p hp
    have := this hk
    rw [RingHom.mem_ker, map_pow] at this
    exact eq_zero_of_pow_eq_zero this
  · have h1 := (hrel p).mpr (Ideal.subset_span hp)
    have ha : a ∈ zeros K n gens := ha
    rw [zeros_eq] at ha
    have h2 := ha _ h1
    rw [comp_aeval_apply] at h2
    exact h2

/-- C218 (subalgebra). `f` is, modulo `I`, a polynomial in `f_1, …, f_r` exactly when the remainder
contains only the new variables; and then it says which polynomial. -/
theorem C218_subalgebra (gens fs : List (Poly F))
    (hg : ∀ g ∈ gens, Poly.Clean (Fin n) g ∧ Poly.den (Fin n) g ≠ (0 : MvPolynomial (Fin n) K))
    (hf : ∀ f ∈ fs, Poly.Clean (Fin n) f) (f : Poly F) (hfc : Poly.Clean (Fin n) f) :
    Spec (PolyPanic F) (expressMod n gens fs f) (fun r =>
      ((∃ p : MvPolynomial (Fin fs.length) K, (Poly.den (Fin n) f : MvPolynomial (Fin n) K) -
          aeval (fun j : Fin fs.length => (Poly.den (Fin n) fs[j] : MvPolynomial (Fin n) K)) p ∈
            Ideal.span (dens (Fin n) gens)) ↔
        ∀ t ∈ r, ∀ i < n, t.mdeg.deg i = 0) ∧
      ∀ p : MvPolynomial (Fin fs.length) K,
        Poly.den (Fin (n + fs.length)) r = rename (Fin.natAdd n) p →
        (Poly.den (Fin n) f : MvPolynomial (Fin n) K) -
          aeval (fun j : Fin fs.length => (Poly.den (Fin n) fs[j] : MvPolynomial (Fin n) K)) p ∈
            Ideal.span (dens (Fin n) gens)) := by
  refine (graphBasisMod_spec (K := K) gens fs hg hf).bind fun G hG => ?_
  refine (divide_gens (OrdKind.implements .lex _).poly polyPanic_allowed (fun g h => (hG.1 g h).1)
    (clean_add fs.length hfc)).bind ?_
  rintro ⟨r, qs⟩ ⟨hr, hred, hmem, -⟩
  simp only at hr hred hmem
  rw [hG.2.1.span_eq, den_add _ hfc.vars] at hmem
  have hput := mem_graphIdealMod.mp hmem
  rw [map_sub, put_inl] at hput
  have hsecond : ∀ p : MvPolynomial (Fin fs.length) K,
      Poly.den (Fin (n + fs.length)) r = inr (n := n) p →
        (Poly.den (Fin n) f : MvPolynomial (Fin n) K) - aeval (denFn n fs) p ∈
          Ideal.span (dens (Fin n) gens) := by
    intro p hp
    rwa [hp, put_inr] at hput
  have honly : (∀ t ∈ r, ∀ i < n, t.mdeg.deg i = 0) ↔ onlyFrom n r = true := by
    unfold onlyFrom
    simp only [List.all_eq_true, List.mem_range, decide_eq_true_eq]
  refine ⟨?_, hsecond⟩
  rw [honly, onlyFrom_iff (K := K) hr]
  constructor
  · rintro ⟨p, hp⟩
    obtain ⟨s, hs, hss⟩ := exists_standard hG.1 hG.2.1 (inr (n := n) p)
    have hsS : s ∈ supported K {i : Fin (n + fs.length) | n ≤ i.val} := by
      rw [mem_supported_iff]
      intro e he
      have h1 := ((OrdKind.lex.mathlib _).le_degree he).trans (standard_degree_le hG.2.1 hs hss)
      refine lex_eliminates n _ _ h1 ?_
      by_cases h0 : inr (n := n) p = 0
      · rw [h0, MonomialOrder.degree_zero]
        intro i hi
        exact absurd rfl hi
      · exact mem_supported_iff.mp (inr_supported p) _ ((OrdKind.lex.mathlib _).degree_mem_support h0)
    have : Poly.den (Fin (n + fs.length)) r = s := by
      refine IsGroebner.unique hG.2.1 hG.2.1 ?_ (fun e he => (hred e he).2) ?_
      · have h1 : inl (Poly.den (Fin n) f) - inr (n := n) p ∈
            (Ideal.span (dens (Fin n) gens)).map (inl (r := fs.length)) ⊔
              graphIdeal (denFn n fs : _ → MvPolynomial _ K) := by
          rw [mem_graphIdealMod, map_sub, put_inl, put_inr]
          exact hp
        have h2 := Ideal.add_mem _ (Ideal.sub_mem _ h1 hmem) hs
        convert h2 using 1
        ring
      · rintro e he _ ⟨g, hg, rfl⟩ -
        exact hss e he g hg
    rw [this]
    exact hsS
  · intro h
    exact ⟨drop (Poly.den (Fin (n + fs.length)) r), hsecond _ (inr_drop h).symm⟩

end

/-! ### Example: `√2 + √3` -/

/-- `y^2 - 3`. -/
def ySqMinusThree : Poly Rational := [⟨⟨1, 1⟩, [0, 2]⟩, ⟨⟨-3, 1⟩, []⟩]

/-- `x^2 - 2` in two variables. -/
def xSqMinusTwo' : Poly Rational := [⟨⟨1, 1⟩, [2]⟩, ⟨⟨-2, 1⟩, []⟩]

/-- `x + y`. -/
def xPlusY : Poly Rational := [⟨⟨1, 1⟩, [1]⟩, ⟨⟨1, 1⟩, [0, 1]⟩]

/-- The basis of `x^2 - 2`, `y^2 - 3`, `z - x - y`. -/
def rootsBasis : List (Poly Rational) :=
  [[⟨⟨1, 1⟩, [0, 1]⟩, ⟨⟨1, 2⟩, [0, 0, 3]⟩, ⟨⟨-11, 2⟩, [0, 0, 1]⟩],
    [⟨⟨1, 1⟩, [0, 0, 4]⟩, ⟨⟨-10, 1⟩, [0, 0, 2]⟩, ⟨⟨1, 1⟩, []⟩],
    [⟨⟨-1, 1⟩, [1]⟩, ⟨⟨1, 2⟩, [0, 0, 3]⟩, ⟨⟨-9, 2⟩, [0, 0, 1]⟩]]

theorem roots_basis : letI := Rational.field .debug
    graphBasisMod 2 [xSqMinusTwo', ySqMinusThree] [xPlusY] = .ok rootsBasis := by
  let _ := Rational.field .debug
  exact bind_eq_ok.mpr ⟨[[⟨⟨1, 1⟩, [0, 0, 1]⟩, ⟨⟨-1, 1⟩, [1]⟩, ⟨⟨-1, 1⟩, [0, 1]⟩]],
    by decide +kernel, (Computer.buchbergerAlgorithmN_approx 60 _).eq (by decide +kernel) (by simp)⟩

/-- C218, a run: the equation of `√2 + √3` is `z^4 - 10 z^2 + 1 = 0`, and `√2 = (z^3 - 9 z) / 2`. -/
theorem C218_run : letI := Rational.field .debug
    relationsMod 2 [xSqMinusTwo', ySqMinusThree] [xPlusY] =
      .ok [[⟨⟨1, 1⟩, [0, 0, 4]⟩, ⟨⟨-10, 1⟩, [0, 0, 2]⟩, ⟨⟨1, 1⟩, []⟩]] ∧
    expressMod 2 [xSqMinusTwo', ySqMinusThree] [xPlusY] opX =
      .ok [⟨⟨1, 2⟩, [0, 0, 3]⟩, ⟨⟨-9, 2⟩, [0, 0, 1]⟩] := by
  let _ := Rational.field .debug
  exact ⟨bind_eq_ok.mpr ⟨_, roots_basis, by decide +kernel⟩,
    bind_eq_ok.mpr ⟨_, roots_basis, bind_eq_ok.mpr
      ⟨([⟨⟨1, 2⟩, [0, 0, 3]⟩, ⟨⟨-9, 2⟩, [0, 0, 1]⟩], [[], [], [⟨⟨-1, 1⟩, []⟩]]),
        (Computer.divideN_approx 60 _ _).eq (by decide +kernel) (by simp), rfl⟩⟩⟩

/-- The hypotheses are met. -/
example : letI := Rational.field .debug
    letI := Rational.lawful
    (∀ g ∈ [xSqMinusTwo', ySqMinusThree], Poly.Clean (Fin 2) g ∧
      Poly.den (Fin 2) g ≠ (0 : MvPolynomial (Fin 2) ℚ)) ∧
    (∀ f ∈ [xPlusY], Poly.Clean (Fin 2) f) ∧ Poly.Clean (Fin 2) opX := by
  let _ := Rational.field .debug
  let _ := Rational.lawful
  exact ⟨sampleGens (k := 2) (by decide), fun f hf => (sampleGens (k := 2) (by decide) f hf).1,
    (sampleGens (k := 2) (gens := [opX]) (by decide) opX (by simp)).1⟩

end Verif
