import Verif.Props.Exponents
import Verif.Props.Coprime

/-!
# Property C184: systems of equations in disjoint sets of variables
-/

namespace Verif
open Res MvPolynomial LawfulRField MOrder

section
variable {σ : Type} {K : Type} [Field K] {m : MonomialOrder σ}

/-- Elements of the ideal of a Gröbner basis are combinations of multiples of elements of the basis
whose degrees do not exceed theirs. -/
theorem IsGroebner.mem_below {I : Ideal (MvPolynomial σ K)} {G : Set (MvPolynomial σ K)}
    (h : IsGroebner m I G) {f : MvPolynomial σ K} (hf : f ∈ I) :
    f ∈ Below m G (· ≤ m.toSyn (m.degree f)) := by
  classical
  generalize hd : wdeg m f = d
  induction d using (wdeg_wf m).induction generalizing f with
  | _ d ih =>
    by_cases hf0 : f = 0
    · rw [hf0]; exact Submodule.zero_mem _
    obtain ⟨g, hg, hg0, hle⟩ := h.2 f hf hf0
    set a : MvPolynomial σ K := monomial (m.degree f - m.degree g)
      (m.leadingCoeff f * (m.leadingCoeff g)⁻¹) with ha
    have hc : m.leadingCoeff f * (m.leadingCoeff g)⁻¹ ≠ 0 :=
      mul_ne_zero (m.leadingCoeff_ne_zero_iff.mpr hf0) (inv_ne_zero (m.leadingCoeff_ne_zero_iff.mpr hg0))
    obtain ⟨h1, h2⟩ := den_mul_monomial (m := m) hg0 (e := m.degree f - m.degree g) hc
    have hlt : f - g * a ≠ 0 → m.toSyn (m.degree (f - g * a)) < m.toSyn (m.degree f) := fun hne => by
      refine degree_sub_lt m ?_ ?_ hne
      · rw [h1, add_tsub_cancel_of_le hle]
      · rw [h2, mul_comm, mul_assoc, inv_mul_cancel₀ (m.leadingCoeff_ne_zero_iff.mpr hg0), mul_one]
    have key : f - g * a ∈ Below m G (· ≤ m.toSyn (m.degree f)) := by
      by_cases hne : f - g * a = 0
      · rw [hne]; exact Submodule.zero_mem _
      · exact Below.mono subset_rfl (fun _ hx => le_trans hx (hlt hne).le)
          (ih _ (by rw [← hd]; exact wdeg_lt m hf0 hlt) (I.sub_mem hf (I.mul_mem_right _ (h.1 hg))) rfl)
    have hag : f = (f - g * a) + a * g := by ring
    have := Submodule.add_mem _ key (monomial_mul_mem_below (m := m) hg hg0
      (m.leadingCoeff f * (m.leadingCoeff g)⁻¹) (e := m.degree f - m.degree g)
      (P := (· ≤ m.toSyn (m.degree f))) (by rw [tsub_add_cancel_of_le hle]))
    rwa [← ha, ← hag] at this

/-- The degree of an S-polynomial is below the least common multiple. -/
theorem spair_degree_lt {f g : MvPolynomial σ K} (hf : f ≠ 0) (hg : g ≠ 0) (h : spair m f g ≠ 0) :
    m.toSyn (m.degree (spair m f g)) < m.toSyn (m.degree f ⊔ m.degree g) := by
  classical
  have key : ∀ p : MvPolynomial σ K, p ≠ 0 → m.degree p ≤ m.degree f ⊔ m.degree g →
      ∀ e ∈ (monomial (m.degree f ⊔ m.degree g - m.degree p) (m.leadingCoeff p)⁻¹ * p).support,
        m.toSyn e ≤ m.toSyn (m.degree f ⊔ m.degree g) := by
    intro p hp hle e he
    refine le_trans (m.le_degree he) ?_
    have := (den_mul_monomial (m := m) hp (e := m.degree f ⊔ m.degree g - m.degree p)
      (inv_ne_zero (m.leadingCoeff_ne_zero_iff.mpr hp))).1
    rw [mul_comm, this, add_tsub_cancel_of_le hle]
  refine degree_lt_of_coeff m h (fun e he => ?_) ?_
  · rcases Finset.mem_union.mp (support_sub _ _ _ he) with h' | h'
    · exact key f hf le_sup_left e h'
    · exact key g hg le_sup_right e h'
  · unfold spair
    rw [coeff_sub, monic_multiple hf le_sup_left, monic_multiple hg le_sup_right, sub_self]

/-- The S-polynomials of a Gröbner basis. -/
theorem IsGroebner.spair_below {I : Ideal (MvPolynomial σ K)} {G : Set (MvPolynomial σ K)}
    (h : IsGroebner m I G) {f g : MvPolynomial σ K} (hf : f ∈ G) (hg : g ∈ G) (hf0 : f ≠ 0) (hg0 : g ≠ 0) :
    spair m f g ∈ Below m G (· < m.toSyn (m.degree f ⊔ m.degree g)) := by
  by_cases h0 : spair m f g = 0
  · rw [h0]; exact Submodule.zero_mem _
  · exact Below.mono subset_rfl (fun _ hx => lt_of_le_of_lt hx (spair_degree_lt hf0 hg0 h0))
      (h.mem_below (spair_mem (h.1 hf) (h.1 hg)))

/-- The union of two Gröbner bases whose leading monomials have no variable in common. -/
theorem IsGroebner.union {I J : Ideal (MvPolynomial σ K)} {G H : Set (MvPolynomial σ K)}
    (hG : IsGroebner m I G) (hH : IsGroebner m J H)
    (hc : ∀ g ∈ G, ∀ h ∈ H, ∀ x, m.degree g x = 0 ∨ m.degree h x = 0) :
    IsGroebner m (I ⊔ J) (G ∪ H) := by
  rw [← hG.span_eq, ← hH.span_eq, ← Ideal.span_union]
  refine buchberger ?_
  rintro f (hf | hf) g (hg | hg) hf0 hg0
  · exact Below.mono Set.subset_union_left (fun _ h => h) (hG.spair_below hf hg hf0 hg0)
  · exact spair_coprime hf0 hg0 (hc f hf g hg) (.inl hf) (.inr hg)
  · exact spair_coprime hf0 hg0 (fun x => (hc g hg f hf x).symm) (.inr hf) (.inl hg)
  · exact Below.mono Set.subset_union_right (fun _ h => h) (hH.spair_below hf hg hf0 hg0)

end

section
variable {F : Type} [RField F] {K : Type} [Field K] [LawfulRField F K] {n : ℕ} {O : MOrder}
  {m : MonomialOrder (Fin n)}

/-- The leading monomials of a list, without repetition, determine its length. -/
theorem leads_length {G H : List (Poly F)} (hG : LeadsIncomparable (K := K) m G)
    (hH : (H.map fun p => m.degree (Poly.den (Fin n) p : MvPolynomial (Fin n) K)).Nodup)
    (h : (fun p => (m.leadingCoeff p)⁻¹ • p) '' dens (Fin n) G =
      (fun p => (m.leadingCoeff p)⁻¹ • p) '' (dens (Fin n) H : Set (MvPolynomial (Fin n) K)))
    (hG0 : ∀ g ∈ G, (Poly.den (Fin n) g : MvPolynomial (Fin n) K) ≠ 0)
    (hH0 : ∀ g ∈ H, (Poly.den (Fin n) g : MvPolynomial (Fin n) K) ≠ 0) : G.length = H.length := by
  have nd : (G.map fun p => m.degree (Poly.den (Fin n) p : MvPolynomial (Fin n) K)).Nodup := by
    rw [List.Nodup, List.pairwise_map]
    exact hG.imp fun h heq => h.1 heq.le
  have deg : ∀ p : MvPolynomial (Fin n) K, p ≠ 0 →
      m.degree ((m.leadingCoeff p)⁻¹ • p) = m.degree p := fun p hp =>
    m.degree_smul_of_mem_nonZeroDivisors
      (mem_nonZeroDivisors_of_ne_zero (inv_ne_zero (m.leadingCoeff_ne_zero_iff.mpr hp)))
  have mem : ∀ L : List (Poly F), (∀ g ∈ L, (Poly.den (Fin n) g : MvPolynomial (Fin n) K) ≠ 0) →
      ∀ d, d ∈ L.map (fun p => m.degree (Poly.den (Fin n) p : MvPolynomial (Fin n) K)) ↔
        d ∈ m.degree '' ((fun p => (m.leadingCoeff p)⁻¹ • p) '' (dens (Fin n) L : Set (MvPolynomial (Fin n) K))) := by
    intro L hL d
    constructor
    · intro hd
      obtain ⟨p, hp, rfl⟩ := List.mem_map.mp hd
      exact ⟨_, ⟨_, mem_dens hp, rfl⟩, deg _ (hL p hp)⟩
    · rintro ⟨_, ⟨_, ⟨p, hp, rfl⟩, rfl⟩, rfl⟩
      exact List.mem_map.mpr ⟨p, hp, (deg _ (hL p hp)).symm⟩
  have hperm := (List.perm_ext_iff_of_nodup nd hH).mpr fun d => by
    rw [mem G hG0, mem H hH0, h]
  simpa using hperm.length_eq

/-- C184. Let `gens₁` be polynomials in the variables of `S` and `gens₂` polynomials in the other
variables, and let none of their Gröbner bases contain a constant. The Gröbner basis of both together is
the union of the Gröbner bases of each, up to nonzero scalars and the order. -/
theorem C184_disjoint (hO : Implements O m) (S : Set ℕ) (gens₁ gens₂ : List (Poly F))
    (h₁ : ∀ g ∈ gens₁, Poly.Clean (Fin n) g ∧ Poly.den (Fin n) g ≠ 0)
    (h₂ : ∀ g ∈ gens₂, Poly.Clean (Fin n) g ∧ Poly.den (Fin n) g ≠ 0)
    (v₁ : ∀ g ∈ gens₁, ∀ t ∈ g, ∀ k, k ∉ S → t.mdeg.deg k = 0)
    (v₂ : ∀ g ∈ gens₂, ∀ t ∈ g, ∀ k, k ∈ S → t.mdeg.deg k = 0)
    {G₁ G₂ G : List (Poly F)} (r₁ : Computer.buchbergerAlgorithm O gens₁ = .ok G₁)
    (r₂ : Computer.buchbergerAlgorithm O gens₂ = .ok G₂)
    (r : Computer.buchbergerAlgorithm O (gens₁ ++ gens₂) = .ok G)
    (c : ∀ g ∈ G₁ ++ G₂, ∃ t ∈ g, t.mdeg ≠ []) :
    (fun p => (m.leadingCoeff p)⁻¹ • p) '' dens (Fin n) G =
      (fun p => (m.leadingCoeff p)⁻¹ • p) '' (dens (Fin n) (G₁ ++ G₂) : Set (MvPolynomial (Fin n) K)) ∧
    G.length = G₁.length + G₂.length := by
  have hg : ∀ g ∈ gens₁ ++ gens₂, Poly.Clean (Fin n) g ∧ (Poly.den (Fin n) g : MvPolynomial (Fin n) K) ≠ 0 := by
    intro g hg
    rcases List.mem_append.mp hg with hg | hg
    · exact h₁ g hg
    · exact h₂ g hg
  have app : ∀ L M : List (Poly F), (dens (Fin n) (L ++ M) : Set (MvPolynomial (Fin n) K)) =
      dens (Fin n) L ∪ dens (Fin n) M := by
    intro L M
    ext p
    constructor
    · rintro ⟨g, hg, rfl⟩
      rcases List.mem_append.mp hg with hg | hg
      · exact .inl ⟨g, hg, rfl⟩
      · exact .inr ⟨g, hg, rfl⟩
    · rintro (⟨g, hg, rfl⟩ | ⟨g, hg, rfl⟩)
      · exact ⟨g, List.mem_append_left _ hg, rfl⟩
      · exact ⟨g, List.mem_append_right _ hg, rfl⟩
  obtain ⟨ok₁, gb₁, -, inc₁, red₁⟩ :=
    (algorithm_spec hO gens₁ h₁ (fun _ => True) trivial fun _ _ => trivial).of_ok r₁
  obtain ⟨ok₂, gb₂, -, inc₂, red₂⟩ :=
    (algorithm_spec hO gens₂ h₂ (fun _ => True) trivial fun _ _ => trivial).of_ok r₂
  obtain ⟨ok, gb, -, inc, red⟩ :=
    (algorithm_spec hO _ hg (fun _ => True) trivial fun _ _ => trivial).of_ok r
  have e₁ : ∀ g ∈ G₁, ∀ e ∈ (Poly.den (Fin n) g : MvPolynomial (Fin n) K).support, ∀ x : Fin n,
      (x : ℕ) ∉ S → e x = 0 := by
    intro g hgm e he x hx
    obtain ⟨t, ht, rfl⟩ := (Poly.mem_support_den (ok₁ g hgm).1).mp he
    exact C183_variables O gens₁ x (fun g hg t ht => v₁ g hg t ht x hx) r₁ g hgm t ht
  have e₂ : ∀ g ∈ G₂, ∀ e ∈ (Poly.den (Fin n) g : MvPolynomial (Fin n) K).support, ∀ x : Fin n,
      (x : ℕ) ∈ S → e x = 0 := by
    intro g hgm e he x hx
    obtain ⟨t, ht, rfl⟩ := (Poly.mem_support_den (ok₂ g hgm).1).mp he
    exact C183_variables O gens₂ x (fun g hg t ht => v₂ g hg t ht x hx) r₂ g hgm t ht
  have dc : ∀ g : Poly F, Poly.Clean (Fin n) g → (∃ t ∈ g, t.mdeg ≠ []) →
      m.degree (Poly.den (Fin n) g : MvPolynomial (Fin n) K) ≠ 0 := by
    rintro g hgc ⟨t, ht, hne⟩ h0
    have hs := m.le_degree ((Poly.mem_support_den (K := K) hgc).mpr ⟨t, ht, rfl⟩)
    rw [h0, map_zero] at hs
    have h0' : t.mdeg.toF (Fin n) = 0 :=
      m.toSyn.injective ((le_antisymm hs bot_le).trans (map_zero m.toSyn).symm)
    have hto := (hgc.terms t ht).toOk
    refine hne (MDeg.toF_inj (b := MDeg.zero) hto.mdeg MDeg.zero_clean hto.vars MDeg.InVars.zero ?_)
    rw [h0']
    refine Finsupp.ext fun x => ?_
    rw [MDeg.toF_apply]
    exact (MDeg.deg_nil _).symm
  have d₁ : ∀ g ∈ G₁, m.degree (Poly.den (Fin n) g : MvPolynomial (Fin n) K) ≠ 0 := fun g hgm =>
    dc g (ok₁ g hgm).1 (c g (List.mem_append_left _ hgm))
  have d₂ : ∀ g ∈ G₂, m.degree (Poly.den (Fin n) g : MvPolynomial (Fin n) K) ≠ 0 := fun g hgm =>
    dc g (ok₂ g hgm).1 (c g (List.mem_append_right _ hgm))
  have n₁ : ∀ f ∈ G₁, ∀ g ∈ G₂, ∀ e ∈ (Poly.den (Fin n) f : MvPolynomial (Fin n) K).support,
      ¬ m.degree (Poly.den (Fin n) g : MvPolynomial (Fin n) K) ≤ e := by
    intro f hf g hgm e he hle
    refine d₂ g hgm (Finsupp.ext fun x => ?_)
    by_cases hx : (x : ℕ) ∈ S
    · exact e₂ g hgm _ (m.degree_mem_support (ok₂.den_ne hgm)) x hx
    · exact Nat.eq_zero_of_le_zero (le_of_le_of_eq (hle x) (e₁ f hf e he x hx))
  have n₂ : ∀ f ∈ G₂, ∀ g ∈ G₁, ∀ e ∈ (Poly.den (Fin n) f : MvPolynomial (Fin n) K).support,
      ¬ m.degree (Poly.den (Fin n) g : MvPolynomial (Fin n) K) ≤ e := by
    intro f hf g hgm e he hle
    refine d₁ g hgm (Finsupp.ext fun x => ?_)
    by_cases hx : (x : ℕ) ∈ S
    · exact Nat.eq_zero_of_le_zero (le_of_le_of_eq (hle x) (e₂ f hf e he x hx))
    · exact e₁ g hgm _ (m.degree_mem_support (ok₁.den_ne hgm)) x hx
  have gbu : IsGroebner m (Ideal.span (dens (Fin n) (gens₁ ++ gens₂) : Set (MvPolynomial (Fin n) K)))
      (dens (Fin n) (G₁ ++ G₂)) := by
    rw [app, app, Ideal.span_union]
    refine gb₁.union gb₂ ?_
    rintro _ ⟨f, hf, rfl⟩ _ ⟨g, hgm, rfl⟩ x
    by_cases hx : (x : ℕ) ∈ S
    · exact .inr (e₂ g hgm _ (m.degree_mem_support (ok₂.den_ne hgm)) x hx)
    · exact .inl (e₁ f hf _ (m.degree_mem_support (ok₁.den_ne hf)) x hx)
  have redu : IsInterReduced m (dens (Fin n) (G₁ ++ G₂) : Set (MvPolynomial (Fin n) K)) := by
    rw [app]
    rintro _ (⟨f, hf, rfl⟩ | ⟨f, hf, rfl⟩) _ (⟨g, hgm, rfl⟩ | ⟨g, hgm, rfl⟩) hne
    · exact red₁ _ (mem_dens hf) _ (mem_dens hgm) hne
    · exact n₁ f hf g hgm
    · exact n₂ f hf g hgm
    · exact red₂ _ (mem_dens hf) _ (mem_dens hgm) hne
  have nzu : ∀ g ∈ G₁ ++ G₂, (Poly.den (Fin n) g : MvPolynomial (Fin n) K) ≠ 0 := by
    intro g hgm
    rcases List.mem_append.mp hgm with h | h
    · exact ok₁.den_ne h
    · exact ok₂.den_ne h
  have heq : (fun p => (m.leadingCoeff p)⁻¹ • p) '' dens (Fin n) G =
      (fun p => (m.leadingCoeff p)⁻¹ • p) '' (dens (Fin n) (G₁ ++ G₂) : Set (MvPolynomial (Fin n) K)) := by
    apply Set.Subset.antisymm
    · rintro _ ⟨p, hp, rfl⟩
      obtain ⟨h, hh, e⟩ := gb.reduced_unique gbu
        (by rintro ⟨g, hgm, h0⟩; exact ok.den_ne hgm h0.symm) red redu hp
      exact ⟨h, hh, e.symm⟩
    · rintro _ ⟨p, hp, rfl⟩
      obtain ⟨h, hh, e⟩ := gbu.reduced_unique gb
        (by rintro ⟨g, hgm, h0⟩; exact nzu g hgm h0.symm) redu red hp
      exact ⟨h, hh, e.symm⟩
  refine ⟨heq, ?_⟩
  rw [← List.length_append]
  refine leads_length inc ?_ heq (fun g hgm => ok.den_ne hgm) nzu
  rw [List.Nodup, List.pairwise_map, List.pairwise_append]
  refine ⟨inc₁.imp fun h e => h.1 e.le, inc₂.imp fun h e => h.1 e.le, fun f hf g hgm e => ?_⟩
  exact n₁ f hf g hgm _ (m.degree_mem_support (ok₁.den_ne hf)) e.ge

end

section examples

/-- `x^2 + z` and `x z - 1` -/
private def exS : List (Poly Rational) :=
  [[⟨⟨1, 1⟩, [2]⟩, ⟨⟨1, 1⟩, [0, 0, 1]⟩], [⟨⟨1, 1⟩, [1, 0, 1]⟩, ⟨⟨-1, 1⟩, []⟩]]
/-- `y^2 - 2` -/
private def exT : List (Poly Rational) := [[⟨⟨1, 1⟩, [0, 2]⟩, ⟨⟨-2, 1⟩, []⟩]]

/-- `x^2 + z` and `x z - 1` are in `x` and `z`, and `y^2 - 2` in `y`. -/
example : letI := Rational.field .debug
    letI := Rational.lawful
    (∀ p ∈ exS, Poly.Clean (Fin 3) p ∧ Poly.den (Fin 3) p ≠ (0 : MvPolynomial (Fin 3) ℚ)) ∧
    (∀ p ∈ exT, Poly.Clean (Fin 3) p ∧ Poly.den (Fin 3) p ≠ (0 : MvPolynomial (Fin 3) ℚ)) ∧
    Computer.buchbergerAlgorithm (OrdKind.lex.order .debug) exS =
      .ok [[⟨⟨1, 1⟩, [1]⟩, ⟨⟨1, 1⟩, [0, 0, 2]⟩], [⟨⟨1, 1⟩, [0, 0, 3]⟩, ⟨⟨1, 1⟩, []⟩]] ∧
    Computer.buchbergerAlgorithm (OrdKind.lex.order .debug) exT = .ok exT ∧
    Computer.buchbergerAlgorithm (OrdKind.lex.order .debug) (exS ++ exT) =
      .ok (exT ++ [[⟨⟨1, 1⟩, [1]⟩, ⟨⟨1, 1⟩, [0, 0, 2]⟩], [⟨⟨1, 1⟩, [0, 0, 3]⟩, ⟨⟨1, 1⟩, []⟩]]) := by
  let _ := Rational.field .debug
  let _ := Rational.lawful
  exact ⟨sampleGens (by decide), sampleGens (by decide),
    (Computer.buchbergerAlgorithmN_approx 30 _).eq (by decide +kernel) (by simp),
    (Computer.buchbergerAlgorithmN_approx 30 _).eq (by decide +kernel) (by simp),
    (Computer.buchbergerAlgorithmN_approx 30 _).eq (by decide +kernel) (by simp)⟩

end examples

end Verif
