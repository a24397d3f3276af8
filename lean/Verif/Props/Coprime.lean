import Verif.Props.Ideal

/-!
# Properties C146 and C147: inclusion of ideals, and coprime leading monomials
-/

namespace Verif
open Res MvPolynomial LawfulRField MOrder

/-! ## C146 inclusion and equality of ideals -/

section
variable {F : Type} [RField F]

/-- Is every polynomial of `fs` in the ideal of `gens`? -/
def includes (O : MOrder) (fs gens : List (Poly F)) : Res Bool := do
  let G ← Computer.buchbergerAlgorithm O gens
  let rs ← fs.mapM fun f => do let (r, _) ← Computer.divide O f G; pure r
  pure (rs.all Poly.isZero)

/-- Do `fs` and `gens` generate the same ideal? -/
def sameIdeal (O : MOrder) (fs gens : List (Poly F)) : Res Bool := do
  let a ← includes O fs gens
  let b ← includes O gens fs
  pure (a && b)

variable {K : Type} [Field K] [LawfulRField F K] {n : ℕ} {O : MOrder} {m : MonomialOrder (Fin n)}

/-- C146, inclusion. -/
theorem C146_inclusion (hO : Implements O m) (fs gens : List (Poly F))
    (hf : ∀ f ∈ fs, Poly.Clean (Fin n) f)
    (hg : ∀ g ∈ gens, Poly.Clean (Fin n) g ∧ Poly.den (Fin n) g ≠ 0) :
    Spec (PolyPanic F) (includes O fs gens) (fun b => b = true ↔
      Ideal.span (dens (Fin n) fs) ≤ Ideal.span (dens (Fin n) gens : Set (MvPolynomial (Fin n) K))) := by
  refine (algorithm_spec hO gens hg (fun _ => True) trivial fun _ _ => trivial).bind fun G h => ?_
  have hG : GroebnerList m G := by
    refine ⟨fun g hg => (h.1 g hg).1, fun f hf hf0 => ?_⟩
    rw [h.2.1.span_eq] at hf
    obtain ⟨_, ⟨g, hgm, rfl⟩, h0, hle⟩ := h.2.1.2 f hf hf0
    exact ⟨g, hgm, h0, hle⟩
  refine (mapM_spec (P := fun f r => r.isZero = true ↔
    Poly.den (Fin n) f ∈ Ideal.span (dens (Fin n) gens : Set (MvPolynomial (Fin n) K)))
    fun f hfm => ?_).bind fun rs hrs => ?_
  · refine (C48_membership hO f G (hf f hfm) hG).bind ?_
    rintro ⟨r, qs⟩ hr
    simp only at hr
    rw [h.2.1.span_eq] at hr
    exact hr
  · change _ ↔ _
    rw [List.all_eq_true, Ideal.span_le]
    constructor
    · rintro hall _ ⟨f, hfm, rfl⟩
      obtain ⟨r, hr, hfr⟩ := forall₂_mem_right hrs.flip hfm
      exact hfr.mp (hall r hr)
    · intro hsub r hr
      obtain ⟨f, hfm, hfr⟩ := forall₂_mem_right hrs hr
      exact hfr.mpr (hsub (mem_dens hfm))

/-- C146, equality. -/
theorem C146_equality (hO : Implements O m) (fs gens : List (Poly F))
    (hf : ∀ g ∈ fs, Poly.Clean (Fin n) g ∧ Poly.den (Fin n) g ≠ 0)
    (hg : ∀ g ∈ gens, Poly.Clean (Fin n) g ∧ Poly.den (Fin n) g ≠ 0) :
    Spec (PolyPanic F) (sameIdeal O fs gens) (fun b => b = true ↔
      Ideal.span (dens (Fin n) fs) = Ideal.span (dens (Fin n) gens : Set (MvPolynomial (Fin n) K))) := by
  refine (C146_inclusion (K := K) hO fs gens (fun f h => (hf f h).1) hg).bind fun a ha => ?_
  refine (C146_inclusion (K := K) hO gens fs (fun f h => (hg f h).1) hf).bind fun b hb => ?_
  change _ ↔ _
  rw [Bool.and_eq_true, ha, hb]
  exact ⟨fun h => le_antisymm h.1 h.2, fun h => ⟨h.le, h.ge⟩⟩

end

/-! ## C147 coprime leading monomials -/

section
variable {σ : Type} {K : Type} [Field K] {m : MonomialOrder σ}

/-- The product criterion: the S-polynomial of two polynomials with coprime leading monomials is a
combination of the two of lower degree. -/
theorem spair_coprime {f g : MvPolynomial σ K} (hf : f ≠ 0) (hg : g ≠ 0)
    (h : ∀ x, m.degree f x = 0 ∨ m.degree g x = 0) {G : Set (MvPolynomial σ K)} (hfG : f ∈ G)
    (hgG : g ∈ G) : spair m f g ∈ Below m G (· < m.toSyn (m.degree f ⊔ m.degree g)) := by
  have hsup : m.degree f ⊔ m.degree g = m.degree f + m.degree g := by
    ext x
    rw [Finsupp.sup_apply, Finsupp.add_apply]
    rcases h x with h | h <;> rw [h] <;> simp
  have key : ∀ p q : MvPolynomial σ K, p ≠ 0 → ∀ c : K, q ∈ G →
      C c * (p - m.leadingTerm p) * q ∈ Below m G (· < m.toSyn (m.degree p + m.degree q)) := by
    intro p q hp c hq
    refine mul_mem_below (fun a b hab hb => lt_of_le_of_lt hab hb) hq fun h0 hq0 => ?_
    have hp' : p - m.leadingTerm p ≠ 0 := right_ne_zero_of_mul h0
    have hd := m.degree_sub_leadingTerm_lt_degree (m.degree_ne_zero_of_sub_leadingTerm_ne_zero hp')
    rw [m.degree_mul h0 hq0, m.degree_mul (left_ne_zero_of_mul h0) hp', m.degree_C, zero_add, map_add,
      map_add]
    exact add_lt_add_left hd _
  have e : spair m f g =
      C ((m.leadingCoeff f)⁻¹ * (m.leadingCoeff g)⁻¹) * (f - m.leadingTerm f) * g -
      C ((m.leadingCoeff f)⁻¹ * (m.leadingCoeff g)⁻¹) * (g - m.leadingTerm g) * f := by
    have hcf : m.leadingCoeff f ≠ 0 := m.leadingCoeff_ne_zero_iff.mpr hf
    have hcg : m.leadingCoeff g ≠ 0 := m.leadingCoeff_ne_zero_iff.mpr hg
    have e1 : monomial (m.degree g) (m.leadingCoeff f)⁻¹ =
        C ((m.leadingCoeff f)⁻¹ * (m.leadingCoeff g)⁻¹) * m.leadingTerm g := by
      rw [MonomialOrder.leadingTerm, C_mul_monomial, mul_assoc, inv_mul_cancel₀ hcg, mul_one]
    have e2 : monomial (m.degree f) (m.leadingCoeff g)⁻¹ =
        C ((m.leadingCoeff f)⁻¹ * (m.leadingCoeff g)⁻¹) * m.leadingTerm f := by
      rw [MonomialOrder.leadingTerm, C_mul_monomial, mul_right_comm, inv_mul_cancel₀ hcf, one_mul]
    unfold spair
    rw [hsup, add_tsub_cancel_left, add_tsub_cancel_right, e1, e2]
    ring
  rw [e, hsup]
  refine Submodule.sub_mem _ (key f g hf _ hgG) ?_
  rw [add_comm]
  exact key g f hg _ hfG

end

section
variable {F : Type} [RField F] {K : Type} [Field K] [LawfulRField F K] {n : ℕ} {O : MOrder}
  {m : MonomialOrder (Fin n)}

/-- Lists with pairwise coprime leading monomials are Gröbner bases. -/
theorem coprime_groebner (gens : List (Poly F))
    (hc : gens.Pairwise fun f g => ∀ x, m.degree (Poly.den (Fin n) f : MvPolynomial (Fin n) K) x = 0 ∨
      m.degree (Poly.den (Fin n) g : MvPolynomial (Fin n) K) x = 0) :
    IsGroebner m (Ideal.span (dens (Fin n) gens : Set (MvPolynomial (Fin n) K))) (dens (Fin n) gens) := by
  refine buchberger ?_
  rintro _ ⟨f, hf, rfl⟩ _ ⟨g, hgm, rfl⟩ hf0 hg0
  by_cases hfg : f = g
  · rw [hfg, spair_self]
    exact Submodule.zero_mem _
  · refine spair_coprime hf0 hg0 ?_ (mem_dens hf) (mem_dens hgm)
    have : Std.Symm fun f g : Poly F => ∀ x, m.degree (Poly.den (Fin n) f : MvPolynomial (Fin n) K) x = 0 ∨
        m.degree (Poly.den (Fin n) g : MvPolynomial (Fin n) K) x = 0 := ⟨fun x y h i => (h i).symm⟩
    exact hc.forall hf hgm hfg

/-- C147. If the leading monomials of the generators are pairwise coprime, `buchberger_criterion`
answers `true`. -/
theorem C147_criterion (hO : Implements O m) (gens : List (Poly F))
    (hg : ∀ g ∈ gens, Poly.Clean (Fin n) g ∧ Poly.den (Fin n) g ≠ (0 : MvPolynomial (Fin n) K))
    (hc : gens.Pairwise fun f g => ∀ x, m.degree (Poly.den (Fin n) f : MvPolynomial (Fin n) K) x = 0 ∨
      m.degree (Poly.den (Fin n) g : MvPolynomial (Fin n) K) x = 0) :
    Spec (PolyPanic F) (Computer.buchbergerCriterion O gens) (fun b => b = true) := by
  refine (C42_criterion hO gens hg).imp fun b hb => hb.mpr fun f hf hf0 => ?_
  obtain ⟨_, ⟨g, hgm, rfl⟩, -, hle⟩ := (coprime_groebner gens hc).2 f hf hf0
  exact ⟨g, hgm, hle⟩

/-- C147. If besides none of them is constant, `buchberger_algorithm` keeps the leading monomials. -/
theorem C147_leading (hO : Implements O m) (gens : List (Poly F))
    (hg : ∀ g ∈ gens, Poly.Clean (Fin n) g ∧ Poly.den (Fin n) g ≠ (0 : MvPolynomial (Fin n) K))
    (hc : gens.Pairwise fun f g => ∀ x, m.degree (Poly.den (Fin n) f : MvPolynomial (Fin n) K) x = 0 ∨
      m.degree (Poly.den (Fin n) g : MvPolynomial (Fin n) K) x = 0)
    (h1 : ∀ g ∈ gens, m.degree (Poly.den (Fin n) g : MvPolynomial (Fin n) K) ≠ 0) :
    Spec (PolyPanic F) (Computer.buchbergerAlgorithm O gens) (fun G =>
      (G.map fun g => m.degree (Poly.den (Fin n) g : MvPolynomial (Fin n) K)).Perm
        (gens.map fun g => m.degree (Poly.den (Fin n) g : MvPolynomial (Fin n) K))) := by
  refine (algorithm_spec hO gens hg (fun _ => True) trivial fun _ _ => trivial).imp ?_
  rintro G ⟨hok, hGr, -, hinc, -⟩
  have hgens := coprime_groebner gens hc
  have hinc' : LeadsIncomparable (σ := Fin n) (K := K) m gens := by
    refine hc.imp_of_mem fun {f g} hf hgm h => ?_
    constructor
    · intro hle
      refine h1 f hf (Finsupp.ext fun x => ?_)
      rcases h x with h | h
      · exact h
      · exact Nat.le_zero.mp (h ▸ hle x)
    · intro hle
      refine h1 g hgm (Finsupp.ext fun x => ?_)
      rcases h x with h | h
      · exact Nat.le_zero.mp (h ▸ hle x)
      · exact h
  have hnodup : ∀ L : List (Poly F), LeadsIncomparable (σ := Fin n) (K := K) m L →
      (L.map fun g => m.degree (Poly.den (Fin n) g : MvPolynomial (Fin n) K)).Nodup := by
    intro L hL
    refine List.pairwise_map.mpr (hL.imp fun h he => h.1 he.le)
  have hsub : ∀ L M : List (Poly F), LeadsIncomparable (σ := Fin n) (K := K) m L →
      IsGroebner m (Ideal.span (dens (Fin n) gens : Set (MvPolynomial (Fin n) K))) (dens (Fin n) L) →
      IsGroebner m (Ideal.span (dens (Fin n) gens : Set (MvPolynomial (Fin n) K))) (dens (Fin n) M) →
      (∀ g ∈ L, (Poly.den (Fin n) g : MvPolynomial (Fin n) K) ≠ 0) →
      ∀ g ∈ L, ∃ h ∈ M, m.degree (Poly.den (Fin n) h : MvPolynomial (Fin n) K) =
        m.degree (Poly.den (Fin n) g : MvPolynomial (Fin n) K) := by
    intro L M hL hLG hMG hL0 g hgm
    obtain ⟨_, ⟨h, hh, rfl⟩, h0, hle⟩ := hMG.2 _ (hLG.1 (mem_dens hgm)) (hL0 g hgm)
    obtain ⟨_, ⟨g', hg', rfl⟩, -, hle'⟩ := hLG.2 _ (hMG.1 (mem_dens hh)) h0
    by_cases he : g' = g
    · exact ⟨h, hh, le_antisymm hle (he ▸ hle')⟩
    · have : Std.Symm fun f g : Poly F => ¬ m.degree (Poly.den (Fin n) f : MvPolynomial (Fin n) K) ≤
          m.degree (Poly.den (Fin n) g) ∧ ¬ m.degree (Poly.den (Fin n) g : MvPolynomial (Fin n) K) ≤
          m.degree (Poly.den (Fin n) f) := ⟨fun _ _ h => ⟨h.2, h.1⟩⟩
      exact absurd (hle'.trans hle) (List.Pairwise.forall hL hg' hgm he).1
  refine (List.perm_ext_iff_of_nodup (hnodup G hinc) (hnodup gens hinc')).mpr fun d => ?_
  simp only [List.mem_map]
  constructor
  · rintro ⟨g, hgm, rfl⟩
    exact hsub G gens hinc hGr hgens (fun g h => hok.den_ne h) g hgm
  · rintro ⟨g, hgm, rfl⟩
    exact hsub gens G hinc' hgens hGr (fun g h => (hg g h).2) g hgm

end

/-! ### Examples -/

/-- `x^2 - y` -/
def copA : Poly Rational := [⟨⟨1, 1⟩, [2]⟩, ⟨⟨-1, 1⟩, [0, 1]⟩]
/-- `y^3 - 2` -/
def copB : Poly Rational := [⟨⟨1, 1⟩, [0, 3]⟩, ⟨⟨-2, 1⟩, []⟩]

/-- The criterion and the algorithm on `x^2 - y, y^3 - 2`. -/
example : letI := Rational.field .debug
    letI := Rational.lawful
    (∀ p ∈ [copA, copB], Poly.Clean (Fin 2) p ∧ Poly.den (Fin 2) p ≠ (0 : MvPolynomial (Fin 2) ℚ)) ∧
    Computer.buchbergerCriterion (OrdKind.lex.order .debug) [copA, copB] = .ok true ∧
    Computer.buchbergerAlgorithm (OrdKind.lex.order .debug) [copA, copB] = .ok [copA, copB] := by
  let _ := Rational.field .debug
  let _ := Rational.lawful
  exact ⟨sampleGens (by decide),
    (Computer.buchbergerCriterionN_approx 30 _).eq (by decide +kernel) (by simp),
    (Computer.buchbergerAlgorithmN_approx 30 _).eq (by decide +kernel) (by simp)⟩

/-- `(x y - 1, y^2 - 1)` contains `x - y`, and it is not the unit ideal. -/
example : letI := Rational.field .debug
    includes (OrdKind.lex.order .debug) [[⟨⟨1, 1⟩, [1]⟩, ⟨⟨-1, 1⟩, [0, 1]⟩]] [cloG₁, cloG₂] = .ok true ∧
    includes (OrdKind.lex.order .debug) [[⟨⟨1, 1⟩, []⟩]] [cloG₁, cloG₂] = .ok false := by
  let _ := Rational.field .debug
  have h : Computer.buchbergerAlgorithm (OrdKind.lex.order .debug) [cloG₁, cloG₂] =
      .ok [[⟨⟨1, 1⟩, [0, 2]⟩, ⟨⟨-1, 1⟩, []⟩], [⟨⟨1, 1⟩, [1]⟩, ⟨⟨-1, 1⟩, [0, 1]⟩]] :=
    (Computer.buchbergerAlgorithmN_approx 30 _).eq (by decide +kernel) (by simp)
  refine ⟨bind_eq_ok.mpr ⟨_, h, ?_⟩, bind_eq_ok.mpr ⟨_, h, ?_⟩⟩
  · rw [List.mapM_cons]
    refine bind_eq_ok.mpr ⟨[[]], bind_eq_ok.mpr ⟨[], bind_eq_ok.mpr ⟨([], [[], [⟨⟨1, 1⟩, []⟩]]),
      (Computer.divideN_approx 30 _ _).eq (by decide +kernel) (by simp), rfl⟩, rfl⟩, rfl⟩
  · rw [List.mapM_cons]
    refine bind_eq_ok.mpr ⟨[[⟨⟨1, 1⟩, []⟩]], bind_eq_ok.mpr ⟨[⟨⟨1, 1⟩, []⟩],
      bind_eq_ok.mpr ⟨([⟨⟨1, 1⟩, []⟩], [[], []]),
      (Computer.divideN_approx 30 _ _).eq (by decide +kernel) (by simp), rfl⟩, rfl⟩, rfl⟩

end Verif
