import Verif.Props.Endless
import Verif.Props.Ideal

/-!
# Property C162: when the Groebner basis routines certainly return
-/

namespace Verif
open Res MvPolynomial LawfulRField

/-- In one variable every order of the crate is the order of exponents; up to 255 it does not panic. -/
theorem OrdKind.lawful_one (k : OrdKind) {E : Panic → Prop} :
    LawfulOrder (σ := Fin 1) (k.order .debug) (k.mathlib 1) (fun e => e 0 ≤ 255) E where
  down a b hb hab := by
    by_contra h
    have hlt : b ≤ a := fun i => by rw [Subsingleton.elim i 0]; omega
    have := le_antisymm hab ((k.mathlib 1).toSyn_monotone hlt)
    rw [(k.mathlib 1).toSyn.injective this] at h
    exact h hb
  ovf := Or.inr fun e he s => by rw [Subsingleton.elim s 0]; omega
  cmp a b ha hb hav hbv hBa hBb := by
    rw [MDeg.inVars_fin ha] at hav
    rw [MDeg.inVars_fin hb] at hbv
    refine (cmp_spec k ha hb hav hbv).mono ?_ fun o ho => ho.compare hav hbv
    rintro p ⟨rfl, _, h⟩
    rw [sum_eq_tot hav, sum_eq_tot hbv, ← extend_toF hav, ← extend_toF hbv, tot_extend,
      tot_extend] at h
    simp only [Fin.sum_univ_one] at h
    omega

/-- Canonical exponents are `u8`. -/
theorem Poly.in_one {K : Type} [Field K] [DecidableEq K] :
    letI := exactField .debug K
    letI := exactLawful K
    ∀ {p : Poly K}, Poly.Clean (Fin 1) p → Poly.In (fun e : Fin 1 →₀ ℕ => e 0 ≤ 255) p := by
  let _ := exactField .debug K
  let _ := exactLawful K
  intro p hp t ht
  have := MDeg.deg_lt (hp.terms t ht).mdeg.lt 0
  change t.mdeg.deg 0 ≤ 255
  omega

theorem Poly.in_graded {K : Type} [Field K] [DecidableEq K] {n N : ℕ} :
    letI := exactField .debug K
    letI := exactLawful K
    ∀ {p : Poly K}, Poly.Clean (Fin n) p → (∀ t ∈ p, t.mdeg.sum ≤ N) →
      Poly.In (fun e : Fin n →₀ ℕ => ∑ s, e s ≤ N) p := by
  let _ := exactField .debug K
  let _ := exactLawful K
  intro p hp h t ht
  have hl := (MDeg.inVars_fin (hp.terms t ht).mdeg).mp (hp.terms t ht).vars
  rw [← tot_extend, extend_toF hl, ← sum_eq_tot hl]
  exact h t ht

/-- **C162 (criterion).** Over an exact field and with `GrLex` or `GRevLex`: if no total degree of a
term, and of the least common multiple of two leading monomials, exceeds 255, `buchberger_criterion`
returns, the same in both builds, and answers whether the list is a Groebner basis. -/
theorem C162_criterion {n : ℕ} (k : OrdKind) (hk : k.graded = true) (K : Type) [Field K] [DecidableEq K]
    (gens : List (Poly K)) :
    letI D := exactField .debug K
    letI := exactLawful K
    ∀ (_ : ∀ g ∈ gens, Poly.Clean (Fin n) g ∧ Poly.den (Fin n) g ≠ 0)
      (_ : ∀ g ∈ gens, ∀ t ∈ g, t.mdeg.sum ≤ 255)
      (_ : ∀ f ∈ gens, ∀ g ∈ gens, ∑ s, ((k.mathlib n).degree (Poly.den (Fin n) f) ⊔
        (k.mathlib n).degree (Poly.den (Fin n) g)) s ≤ 255),
      ∃ b, @Computer.buchbergerCriterion _ D (k.order .debug) gens = .ok b ∧
        @Computer.buchbergerCriterion _ (exactField .release K) (k.order .release) gens = .ok b ∧
        (b = true ↔ ∀ f ∈ Ideal.span (dens (Fin n) gens), f ≠ 0 →
          ∃ g ∈ gens, (k.mathlib n).degree (Poly.den (Fin n) g) ≤ (k.mathlib n).degree f) := by
  let _ := exactField .debug K
  let _ := exactLawful K
  intro hg hd hl
  have hok : GenOk (Fin n) gens := fun g h => ⟨(hg g h).1, fun h0 => (hg g h).2 (by rw [h0]; rfl)⟩
  obtain ⟨b, hb, -⟩ := (buchbergerCriterion_spec_in (E := fun _ => False)
    (OrdKind.lawful_graded k hk n) (fun p hp => hp) hok
    ⟨fun g h => Poly.in_graded (hg g h).1 (hd g h), hl⟩).total
  exact ⟨b, hb, Computer.buchbergerCriterion_refines (exactOps_refine K)
    (Flt.order_refines .release k) _ _ hb, (C42_criterion (k.implements n) gens hg).of_ok hb⟩

/-- The condition on least common multiples holds if total degrees do not exceed 127. -/
theorem C162_small {n : ℕ} (k : OrdKind) (K : Type) [Field K] [DecidableEq K] (gens : List (Poly K)) :
    letI := exactField .debug K
    letI := exactLawful K
    ∀ (_ : ∀ g ∈ gens, Poly.Clean (Fin n) g ∧ Poly.den (Fin n) g ≠ 0)
      (_ : ∀ g ∈ gens, ∀ t ∈ g, t.mdeg.sum ≤ 127),
      ∀ f ∈ gens, ∀ g ∈ gens, ∑ s, ((k.mathlib n).degree (Poly.den (Fin n) f) ⊔
        (k.mathlib n).degree (Poly.den (Fin n) g)) s ≤ 255 := by
  let _ := exactField .debug K
  let _ := exactLawful K
  intro hg hd f hf g hgm
  have key : ∀ g ∈ gens, ∑ s, (k.mathlib n).degree (Poly.den (Fin n) g) s ≤ 127 := fun g h =>
    (Poly.in_graded (hg g h).1 (hd g h)).degree (m := k.mathlib n) (hg g h).1
      fun h0 => (hg g h).2 (by rw [h0]; rfl)
  have h1 := key f hf
  have h2 := key g hgm
  have : ∑ s, ((k.mathlib n).degree (Poly.den (Fin n) f) ⊔
        (k.mathlib n).degree (Poly.den (Fin n) g)) s ≤
      ∑ s, ((k.mathlib n).degree (Poly.den (Fin n) f) s +
        (k.mathlib n).degree (Poly.den (Fin n) g) s) :=
    Finset.sum_le_sum fun s _ => by rw [Finsupp.sup_apply]; exact sup_le (by omega) (by omega)
  rw [Finset.sum_add_distrib] at this
  omega

/-- **C162 (Groebner bases).** If in addition the list is a Groebner basis, `buchberger_algorithm`
returns, the same in both builds. -/
theorem C162_algorithm {n : ℕ} (k : OrdKind) (hk : k.graded = true) (K : Type) [Field K]
    [DecidableEq K] (gens : List (Poly K)) :
    letI D := exactField .debug K
    letI := exactLawful K
    ∀ (_ : ∀ g ∈ gens, Poly.Clean (Fin n) g ∧ Poly.den (Fin n) g ≠ 0)
      (_ : ∀ g ∈ gens, ∀ t ∈ g, t.mdeg.sum ≤ 255)
      (_ : ∀ f ∈ gens, ∀ g ∈ gens, ∑ s, ((k.mathlib n).degree (Poly.den (Fin n) f) ⊔
        (k.mathlib n).degree (Poly.den (Fin n) g)) s ≤ 255)
      (_ : ∀ f ∈ Ideal.span (dens (Fin n) gens), f ≠ 0 →
        ∃ g ∈ gens, (k.mathlib n).degree (Poly.den (Fin n) g) ≤ (k.mathlib n).degree f),
      ∃ G, @Computer.buchbergerAlgorithm _ D (k.order .debug) gens = .ok G ∧
        @Computer.buchbergerAlgorithm _ (exactField .release K) (k.order .release) gens = .ok G := by
  let _ := exactField .debug K
  let _ := exactLawful K
  intro hg hd hl hGr
  have hok : GenOk (Fin n) gens := fun g h => ⟨(hg g h).1, fun h0 => (hg g h).2 (by rw [h0]; rfl)⟩
  have hin : ∀ g ∈ gens, Poly.In (fun e : Fin n →₀ ℕ => ∑ s, e s ≤ 255) g :=
    fun g h => Poly.in_graded (hg g h).1 (hd g h)
  obtain ⟨G, hG, -⟩ := (buchbergerAlgorithm_spec_in (E := fun _ => False)
    (OrdKind.lawful_graded k hk n) (fun p hp => hp) hok hin (fun G _ _ h => by
      rcases h with rfl | h
      · exact ⟨hin, hl⟩
      · refine absurd ⟨Ideal.subset_span, fun f hf hf0 => ?_⟩ h
        obtain ⟨g, hgm, hle⟩ := hGr f hf hf0
        exact ⟨_, mem_dens hgm, (hg g hgm).2, hle⟩) (fun _ => True) trivial fun _ _ => trivial).total
  exact ⟨G, hG, Computer.buchbergerAlgorithm_refines (exactOps_refine K)
    (Flt.order_refines .release k) _ _ hG⟩

/-- **C162 (one variable).** Over an exact field, in one variable, with any of the four orders,
`buchberger_algorithm` returns on every list of canonical nonzero polynomials, the same in both builds;
if the list is not empty, the result is a single polynomial, a greatest common divisor. -/
theorem C162_one_variable (k : OrdKind) (K : Type) [Field K] [DecidableEq K] (gens : List (Poly K)) :
    letI D := exactField .debug K
    letI := exactLawful K
    ∀ (_ : ∀ g ∈ gens, Poly.Clean (Fin 1) g ∧ Poly.den (Fin 1) g ≠ 0),
      ∃ G, @Computer.buchbergerAlgorithm _ D (k.order .debug) gens = .ok G ∧
        @Computer.buchbergerAlgorithm _ (exactField .release K) (k.order .release) gens = .ok G ∧
        (gens ≠ [] → ∃ d, G = [d] ∧
          (∀ g ∈ gens, Poly.den (Fin 1) d ∣ (Poly.den (Fin 1) g : MvPolynomial (Fin 1) K)) ∧
          ∀ q : MvPolynomial (Fin 1) K, (∀ g ∈ gens, q ∣ Poly.den (Fin 1) g) →
            q ∣ Poly.den (Fin 1) d) := by
  let _ := exactField .debug K
  let _ := exactLawful K
  intro hg
  have hok : GenOk (Fin 1) gens := fun g h => ⟨(hg g h).1, fun h0 => (hg g h).2 (by rw [h0]; rfl)⟩
  obtain ⟨G, hG, -⟩ := (buchbergerAlgorithm_spec_in (E := fun _ => False)
    (OrdKind.lawful_one k) (fun p hp => hp) hok (fun g h => Poly.in_one (hg g h).1)
    (fun G hok' hin _ => ⟨hin, fun f hf g hg => by
      have h1 := (hin f hf).degree (m := k.mathlib 1) (hok' f hf).1 (hok' f hf).2
      have h2 := (hin g hg).degree (m := k.mathlib 1) (hok' g hg).1 (hok' g hg).2
      rw [Finsupp.sup_apply]
      exact sup_le h1 h2⟩) (fun _ => True) trivial fun _ _ => trivial).total
  exact ⟨G, hG, Computer.buchbergerAlgorithm_refines (exactOps_refine K)
    (Flt.order_refines .release k) _ _ hG,
    fun hne => (C105_gcd (k.implements 1) gens hg hne).of_ok hG⟩

/-- **C162 (one variable, division).** -/
theorem C162_divide_one_variable (k : OrdKind) (K : Type) [Field K] [DecidableEq K] (f : Poly K)
    (divs : List (Poly K)) :
    letI D := exactField .debug K
    letI := exactLawful K
    ∀ (_ : Poly.Clean (Fin 1) f) (_ : ∀ g ∈ divs, Poly.Clean (Fin 1) g),
      ∃ x, @Computer.divide _ D (k.order .debug) f divs = .ok x ∧
        @Computer.divide _ (exactField .release K) (k.order .release) f divs = .ok x := by
  let _ := exactField .debug K
  let _ := exactLawful K
  intro hf hd
  obtain ⟨x, hx, -⟩ := (divide_spec (E := fun _ => False) (OrdKind.lawful_one k) (fun p hp => hp) hf
    (Poly.in_one hf) fun g hg => ⟨hd g hg, Poly.in_one (hd g hg)⟩).total
  exact ⟨x, hx, Computer.divide_refines (exactOps_refine K) (Flt.order_refines .release k) _ _ _ hx⟩

/-! ### The hypotheses are met -/

theorem Poly.exact_clean {K : Type} [Field K] [DecidableEq K] {n : ℕ} {p : Poly K}
    (h : ∀ t ∈ p, t.coef ≠ 0 ∧ t.mdeg.Clean ∧ t.mdeg.length ≤ n) (hn : (p.map (·.mdeg)).Nodup) :
    letI := exactField .debug K
    letI := exactLawful K
    Poly.Clean (Fin n) p := by
  let _ := exactField .debug K
  let _ := exactLawful K
  refine ⟨fun t ht => ?_, hn⟩
  obtain ⟨h1, h2, h3⟩ := h t ht
  exact ⟨⟨trivial, h2, (MDeg.inVars_fin h2).mpr h3⟩, h1⟩

/-- `x^255 - 1` and `x^100 - x` over the rationals. -/
example (k : OrdKind) : letI := exactField .debug ℚ
    ∃ G, Computer.buchbergerAlgorithm (k.order .debug)
      ([[⟨1, [255]⟩, ⟨-1, []⟩], [⟨1, [100]⟩, ⟨-1, [1]⟩]] : List (Poly ℚ)) = .ok G := by
  let _ := exactField .debug ℚ
  let _ := exactLawful ℚ
  have h1 : Poly.Clean (Fin 1) ([⟨1, [255]⟩, ⟨-1, []⟩] : Poly ℚ) :=
    Poly.exact_clean (by decide) (by decide)
  have h2 : Poly.Clean (Fin 1) ([⟨1, [100]⟩, ⟨-1, [1]⟩] : Poly ℚ) :=
    Poly.exact_clean (by decide) (by decide)
  refine (C162_one_variable k ℚ _ ?_).imp fun G hG => hG.1
  intro g hg
  simp only [List.mem_cons, List.not_mem_nil, or_false] at hg
  rcases hg with rfl | rfl
  · exact ⟨h1, by rw [Ne, Poly.den_eq_zero_iff h1]; simp⟩
  · exact ⟨h2, by rw [Ne, Poly.den_eq_zero_iff h2]; simp⟩

/-- `x^2 y - 1` and `x y^2 - x` over the rationals. -/
example : letI := exactField .debug ℚ
    ∃ b, Computer.buchbergerCriterion (OrdKind.gRevLex.order .debug)
      ([[⟨1, [2, 1]⟩, ⟨-1, []⟩], [⟨1, [1, 2]⟩, ⟨-1, [1]⟩]] : List (Poly ℚ)) = .ok b := by
  let _ := exactField .debug ℚ
  let _ := exactLawful ℚ
  have h1 : Poly.Clean (Fin 2) ([⟨1, [2, 1]⟩, ⟨-1, []⟩] : Poly ℚ) :=
    Poly.exact_clean (by decide) (by decide)
  have h2 : Poly.Clean (Fin 2) ([⟨1, [1, 2]⟩, ⟨-1, [1]⟩] : Poly ℚ) :=
    Poly.exact_clean (by decide) (by decide)
  have hg : ∀ g ∈ ([[⟨1, [2, 1]⟩, ⟨-1, []⟩], [⟨1, [1, 2]⟩, ⟨-1, [1]⟩]] : List (Poly ℚ)),
      Poly.Clean (Fin 2) g ∧ Poly.den (Fin 2) g ≠ 0 := by
    intro g hg
    simp only [List.mem_cons, List.not_mem_nil, or_false] at hg
    rcases hg with rfl | rfl
    · exact ⟨h1, by rw [Ne, Poly.den_eq_zero_iff h1]; simp⟩
    · exact ⟨h2, by rw [Ne, Poly.den_eq_zero_iff h2]; simp⟩
  exact (C162_criterion .gRevLex rfl ℚ _ hg (by decide) (C162_small _ ℚ _ hg (by decide))).imp
    fun b hb => hb.1

end Verif
