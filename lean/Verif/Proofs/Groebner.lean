import Verif.Proofs.Divide
import Mathlib.RingTheory.MvPolynomial.Ideal
import Mathlib.RingTheory.Polynomial.Basic
import Mathlib.RingTheory.PrincipalIdealDomain

/-! # Gröbner bases over a field

Mathematics that Mathlib does not have: Buchberger's criterion, and the uniqueness of reduced
bases.  Nothing here mentions the program. -/

namespace Verif
open MvPolynomial

variable {σ : Type} {K : Type} [Field K] (m : MonomialOrder σ)

/-- `G` is a Gröbner basis of the ideal `I`: a subset of `I` such that the leading monomial of every
nonzero element of `I` is divisible by the leading monomial of a nonzero element of `G`. -/
def IsGroebner (I : Ideal (MvPolynomial σ K)) (G : Set (MvPolynomial σ K)) : Prop :=
  G ⊆ I ∧ ∀ f ∈ I, f ≠ 0 → ∃ g ∈ G, g ≠ 0 ∧ m.degree g ≤ m.degree f

/-- The S-polynomial, normalised by the leading coefficients. -/
noncomputable def spair (f g : MvPolynomial σ K) : MvPolynomial σ K :=
  monomial (m.degree f ⊔ m.degree g - m.degree f) (m.leadingCoeff f)⁻¹ * f -
  monomial (m.degree f ⊔ m.degree g - m.degree g) (m.leadingCoeff g)⁻¹ * g

/-- Combinations of monomial multiples of elements of `G` whose degrees satisfy `P`. -/
noncomputable def Below (G : Set (MvPolynomial σ K)) (P : m.syn → Prop) : Submodule K (MvPolynomial σ K) :=
  Submodule.span K {p | ∃ g ∈ G, ∃ e : σ →₀ ℕ, g ≠ 0 ∧ P (m.toSyn (e + m.degree g)) ∧
    p = monomial e 1 * g}

variable {m}

theorem Below.mono {G H : Set (MvPolynomial σ K)} {P Q : m.syn → Prop} (hG : G ⊆ H)
    (h : ∀ d, P d → Q d) : Below m G P ≤ Below m H Q := by
  refine Submodule.span_mono ?_
  rintro p ⟨g, hg, e, hne, hP, rfl⟩
  exact ⟨g, hG hg, e, hne, h _ hP, rfl⟩

theorem monomial_mul_mem_below {G : Set (MvPolynomial σ K)} {P : m.syn → Prop}
    {g : MvPolynomial σ K} (hg : g ∈ G) (hne : g ≠ 0) {e : σ →₀ ℕ} (c : K)
    (hP : P (m.toSyn (e + m.degree g))) : monomial e c * g ∈ Below m G P := by
  have : (monomial e c : MvPolynomial σ K) * g = c • (monomial e 1 * g) := by
    rw [← smul_mul_assoc, smul_monomial, smul_eq_mul, mul_one]
  rw [this]
  exact Submodule.smul_mem _ _ (Submodule.subset_span ⟨g, hg, e, hne, hP, rfl⟩)

theorem Below.mul_monomial {G : Set (MvPolynomial σ K)} {a : m.syn} {p : MvPolynomial σ K}
    (hp : p ∈ Below m G (· < a)) (e : σ →₀ ℕ) (c : K) :
    monomial e c * p ∈ Below m G (· < m.toSyn e + a) := by
  induction hp using Submodule.span_induction with
  | mem x hx =>
    obtain ⟨g, hg, e', hne, hlt, rfl⟩ := hx
    rw [← mul_assoc, monomial_mul]
    refine monomial_mul_mem_below hg hne _ ?_
    rw [add_assoc, map_add]
    exact add_lt_add_right hlt _
  | zero => rw [mul_zero]; exact Submodule.zero_mem _
  | add x y _ _ hx hy => rw [mul_add]; exact Submodule.add_mem _ hx hy
  | smul c' x _ hx => rw [mul_smul_comm]; exact Submodule.smul_mem _ _ hx

/-- A product `q g` with degree at most `d`. -/
theorem mul_mem_below {G : Set (MvPolynomial σ K)} {P : m.syn → Prop}
    (hP : ∀ a b, a ≤ b → P b → P a) {q g : MvPolynomial σ K} (hg : g ∈ G)
    (hd : q ≠ 0 → g ≠ 0 → P (m.toSyn (m.degree (q * g)))) : q * g ∈ Below m G P := by
  by_cases hg0 : g = 0
  · rw [hg0, mul_zero]; exact Submodule.zero_mem _
  by_cases hq0 : q = 0
  · rw [hq0, zero_mul]; exact Submodule.zero_mem _
  have hq : q * g = ∑ e ∈ q.support, monomial e (coeff e q) * g := by
    rw [← Finset.sum_mul, ← q.as_sum]
  rw [hq]
  refine Submodule.sum_mem _ fun e he => monomial_mul_mem_below hg hg0 _ ?_
  refine hP _ _ ?_ (hd hq0 hg0)
  rw [m.degree_mul hq0 hg0, map_add, map_add]
  exact add_le_add_left (m.le_degree he) _

theorem Below.coeff_eq_zero {G : Set (MvPolynomial σ K)} {P : m.syn → Prop} {d : σ →₀ ℕ}
    (hP : ∀ a, P a → a < m.toSyn d) {f : MvPolynomial σ K} (hf : f ∈ Below m G P) :
    coeff d f = 0 := by
  classical
  induction hf using Submodule.span_induction with
  | mem x hx =>
    obtain ⟨g, hg, e, hne, hlt, rfl⟩ := hx
    apply m.coeff_eq_zero_of_lt
    rw [m.degree_mul (by simp) hne, m.degree_monomial, if_neg one_ne_zero]
    exact hP _ hlt
  | zero => simp
  | add x y _ _ hx hy => rw [coeff_add, hx, hy, add_zero]
  | smul c x _ hx => rw [coeff_smul, hx, smul_zero]

theorem Below.exists_le {G : Set (MvPolynomial σ K)} {P : m.syn → Prop} {f : MvPolynomial σ K}
    (hf : f ∈ Below m G P) : f = 0 ∨ ∃ d, P d ∧ f ∈ Below m G (· ≤ d) := by
  induction hf using Submodule.span_induction with
  | mem x hx =>
    obtain ⟨g, hg, e, hne, hlt, rfl⟩ := hx
    exact Or.inr ⟨_, hlt, monomial_mul_mem_below hg hne _ (le_refl _)⟩
  | zero => exact Or.inl rfl
  | add x y _ _ hx hy =>
    rcases hx with rfl | ⟨d, hd, hx⟩
    · rw [zero_add]; exact hy
    rcases hy with rfl | ⟨d', hd', hy⟩
    · rw [add_zero]; exact Or.inr ⟨d, hd, hx⟩
    refine Or.inr ⟨max d d', ?_, Submodule.add_mem _ (Below.mono (le_refl _) ?_ hx)
      (Below.mono (le_refl _) ?_ hy)⟩
    · rcases max_choice d d' with h | h <;> rw [h] <;> assumption
    · exact fun a ha => ha.trans (le_max_left _ _)
    · exact fun a ha => ha.trans (le_max_right _ _)
  | smul c x _ hx =>
    rcases hx with rfl | ⟨d, hd, hx⟩
    · exact Or.inl (smul_zero _)
    · exact Or.inr ⟨d, hd, Submodule.smul_mem _ _ hx⟩

theorem span_le_below {G : Set (MvPolynomial σ K)} {f : MvPolynomial σ K} (hf : f ∈ Ideal.span G) :
    f ∈ Below m G (fun _ => True) := by
  induction hf using Submodule.span_induction with
  | mem x hx =>
    have := mul_mem_below (m := m) (P := fun _ => True) (fun _ _ _ h => h) (q := 1) hx (by simp)
    rwa [one_mul] at this
  | zero => exact Submodule.zero_mem _
  | add x y _ _ hx hy => exact Submodule.add_mem _ hx hy
  | smul c x _ hx =>
    rw [smul_eq_mul]
    clear * - hx
    induction hx using Submodule.span_induction with
    | mem x hx =>
      obtain ⟨g, hg, e, hne, _, rfl⟩ := hx
      rw [← mul_assoc]
      exact mul_mem_below (fun _ _ _ h => h) hg (by simp)
    | zero => rw [mul_zero]; exact Submodule.zero_mem _
    | add x y _ _ hx hy => rw [mul_add]; exact Submodule.add_mem _ hx hy
    | smul c' x _ hx => rw [mul_smul_comm]; exact Submodule.smul_mem _ _ hx

/-- A normalised multiple of `g` of degree `d`. -/
theorem monic_multiple {g : MvPolynomial σ K} (hg : g ≠ 0) {d : σ →₀ ℕ} (hd : m.degree g ≤ d) :
    coeff d (monomial (d - m.degree g) (m.leadingCoeff g)⁻¹ * g) = 1 := by
  have : d = (d - m.degree g) + m.degree g := (tsub_add_cancel_of_le hd).symm
  conv_lhs => arg 1; rw [this]
  rw [coeff_monomial_mul]
  exact inv_mul_cancel₀ (m.leadingCoeff_ne_zero_iff.mpr hg)

/-- If every S-polynomial has a representation below the lcm of the leading monomials, then
combinations of degree at most `d` can be normalised modulo combinations of smaller degree. -/
theorem below_sub {G : Set (MvPolynomial σ K)}
    (h : ∀ f ∈ G, ∀ g ∈ G, f ≠ 0 → g ≠ 0 →
      spair m f g ∈ Below m G (· < m.toSyn (m.degree f ⊔ m.degree g)))
    {d : σ →₀ ℕ} {g₀ : MvPolynomial σ K} (hg₀ : g₀ ∈ G) (hne₀ : g₀ ≠ 0) (hd₀ : m.degree g₀ ≤ d)
    {f : MvPolynomial σ K} (hf : f ∈ Below m G (· ≤ m.toSyn d)) :
    f - coeff d f • (monomial (d - m.degree g₀) (m.leadingCoeff g₀)⁻¹ * g₀) ∈
      Below m G (· < m.toSyn d) := by
  classical
  induction hf using Submodule.span_induction with
  | mem x hx =>
    obtain ⟨g, hg, e, hne, hle, rfl⟩ := hx
    have hdeg : m.degree (monomial e (1 : K) * g) = e + m.degree g := by
      rw [m.degree_mul (by simp) hne, m.degree_monomial, if_neg one_ne_zero]
    rcases hle.lt_or_eq with hlt | heq
    · have : coeff d (monomial e (1 : K) * g) = 0 := by
        apply m.coeff_eq_zero_of_lt; rwa [hdeg]
      rw [this, zero_smul, sub_zero]
      exact monomial_mul_mem_below hg hne _ hlt
    · have heq := m.toSyn.injective heq
      have hc : coeff d (monomial e (1 : K) * g) = m.leadingCoeff g := by
        rw [← heq, coeff_monomial_mul, one_mul]; rfl
      have hdg : m.degree g ≤ d := by rw [← heq]; exact le_add_self
      have key := Below.mul_monomial (h g hg g₀ hg₀ hne hne₀) (d - m.degree g ⊔ m.degree g₀)
        (m.leadingCoeff g)
      have hL : m.degree g ⊔ m.degree g₀ ≤ d := sup_le hdg hd₀
      rw [← map_add, tsub_add_cancel_of_le hL] at key
      have he : e = d - m.degree g := by rw [← heq, add_tsub_cancel_right]
      have e1 : d - m.degree g ⊔ m.degree g₀ + (m.degree g ⊔ m.degree g₀ - m.degree g) =
          d - m.degree g := tsub_add_tsub_cancel hL le_sup_left
      have e2 : d - m.degree g ⊔ m.degree g₀ + (m.degree g ⊔ m.degree g₀ - m.degree g₀) =
          d - m.degree g₀ := tsub_add_tsub_cancel hL le_sup_right
      have : monomial e (1 : K) * g - m.leadingCoeff g • (monomial (d - m.degree g₀)
          (m.leadingCoeff g₀)⁻¹ * g₀) =
          monomial (d - m.degree g ⊔ m.degree g₀) (m.leadingCoeff g) * spair m g g₀ := by
        unfold spair
        rw [mul_sub, ← mul_assoc, ← mul_assoc, monomial_mul, monomial_mul, e1, e2,
          mul_inv_cancel₀ (m.leadingCoeff_ne_zero_iff.mpr hne), ← he, ← smul_mul_assoc,
          smul_monomial, smul_eq_mul]
      rw [hc, this]
      exact key
  | zero => simp
  | add x y _ _ hx hy =>
    rw [coeff_add, add_smul, add_sub_add_comm]
    exact Submodule.add_mem _ hx hy
  | smul c x _ hx =>
    rw [coeff_smul, smul_assoc, ← smul_sub]
    exact Submodule.smul_mem _ _ hx

/-- **Buchberger's criterion** (the hard direction). -/
theorem buchberger {G : Set (MvPolynomial σ K)}
    (h : ∀ f ∈ G, ∀ g ∈ G, f ≠ 0 → g ≠ 0 →
      spair m f g ∈ Below m G (· < m.toSyn (m.degree f ⊔ m.degree g))) :
    IsGroebner m (Ideal.span G) G := by
  refine ⟨Ideal.subset_span, fun f hf hf0 => ?_⟩
  obtain rfl | ⟨d₀, _, hd₀⟩ := Below.exists_le (span_le_below (m := m) hf)
  · exact absurd rfl hf0
  -- take `d` minimal
  obtain ⟨d, hd, hmin⟩ := WellFounded.has_min (wellFounded_lt (α := m.syn))
    {d | f ∈ Below m G (· ≤ d)} ⟨d₀, hd₀⟩
  obtain ⟨d, rfl⟩ := m.toSyn.surjective d
  have hmin' : f ∉ Below m G (· < m.toSyn d) := by
    intro hlt
    rcases Below.exists_le hlt with h0 | ⟨d', hd', hf'⟩
    · exact hf0 h0
    · exact hmin d' hf' hd'
  by_cases hex : ∃ g ∈ G, g ≠ 0 ∧ m.degree g ≤ d
  · obtain ⟨g, hg, hne, hle⟩ := hex
    have hsub := below_sub h hg hne hle hd
    have hc : coeff d f ≠ 0 := by
      intro h0
      rw [h0, zero_smul, sub_zero] at hsub
      exact hmin' hsub
    have hdeg : m.degree f = d := by
      apply m.toSyn.injective
      apply le_antisymm
      · by_contra hlt
        push Not at hlt
        have : coeff (m.degree f) f = 0 :=
          Below.coeff_eq_zero (fun a ha => lt_of_le_of_lt ha hlt) hd
        exact m.leadingCoeff_ne_zero_iff.mpr hf0 this
      · exact m.le_degree (mem_support_iff.mpr hc)
    exact ⟨g, hg, hne, by rwa [hdeg]⟩
  · exfalso
    apply hmin'
    refine Submodule.span_mono ?_ hd
    rintro p ⟨g, hg, e, hne, hle, rfl⟩
    refine ⟨g, hg, e, hne, lt_of_le_of_ne hle fun heq => hex ⟨g, hg, hne, ?_⟩, rfl⟩
    rw [← m.toSyn.injective heq]; exact le_add_self

theorem spair_mem {I : Ideal (MvPolynomial σ K)} {f g : MvPolynomial σ K} (hf : f ∈ I) (hg : g ∈ I) :
    spair m f g ∈ I :=
  I.sub_mem (I.mul_mem_left _ hf) (I.mul_mem_left _ hg)

theorem spair_comm (f g : MvPolynomial σ K) : spair m f g = - spair m g f := by
  unfold spair; rw [sup_comm]; ring

theorem spair_self (f : MvPolynomial σ K) : spair m f f = 0 := sub_self _

/-- An element of the ideal none of whose monomials is divisible by a leading monomial is zero. -/
theorem IsGroebner.eq_zero {I : Ideal (MvPolynomial σ K)} {G : Set (MvPolynomial σ K)}
    (h : IsGroebner m I G) {r : MvPolynomial σ K} (hr : r ∈ I)
    (hred : ∀ e ∈ r.support, ∀ g ∈ G, g ≠ 0 → ¬ m.degree g ≤ e) : r = 0 := by
  by_contra hne
  obtain ⟨g, hg, hg0, hle⟩ := h.2 r hr hne
  exact hred _ (m.degree_mem_support hne) g hg hg0 hle

/-- Uniqueness of remainders. -/
theorem IsGroebner.unique {I : Ideal (MvPolynomial σ K)} {G H : Set (MvPolynomial σ K)}
    (hG : IsGroebner m I G) (hH : IsGroebner m I H) {r s : MvPolynomial σ K} (hrs : r - s ∈ I)
    (hr : ∀ e ∈ r.support, ∀ g ∈ G, g ≠ 0 → ¬ m.degree g ≤ e)
    (hs : ∀ e ∈ s.support, ∀ g ∈ H, g ≠ 0 → ¬ m.degree g ≤ e) : r = s := by
  classical
  rw [← sub_eq_zero]
  by_contra hne
  have hmem := m.degree_mem_support hne
  rcases Finset.mem_union.mp (support_sub _ r s hmem) with h | h
  · obtain ⟨g, hg, hg0, hle⟩ := hG.2 _ hrs hne
    exact hr _ h g hg hg0 hle
  · obtain ⟨g, hg, hg0, hle⟩ := hH.2 _ hrs hne
    exact hs _ h g hg hg0 hle

/-- A Gröbner basis generates its ideal. -/
theorem IsGroebner.span_eq {I : Ideal (MvPolynomial σ K)} {G : Set (MvPolynomial σ K)}
    (h : IsGroebner m I G) : Ideal.span G = I := by
  classical
  apply le_antisymm (Ideal.span_le.mpr h.1)
  intro f hf
  generalize hd : wdeg m f = d
  induction d using (wdeg_wf m).induction generalizing f with
  | _ d ih =>
    by_cases hf0 : f = 0
    · rw [hf0]; exact Ideal.zero_mem _
    obtain ⟨g, hg, hg0, hle⟩ := h.2 f hf hf0
    set a : MvPolynomial σ K := monomial (m.degree f - m.degree g)
      (m.leadingCoeff f * (m.leadingCoeff g)⁻¹) with ha
    have hc : m.leadingCoeff f * (m.leadingCoeff g)⁻¹ ≠ 0 :=
      mul_ne_zero (m.leadingCoeff_ne_zero_iff.mpr hf0) (inv_ne_zero (m.leadingCoeff_ne_zero_iff.mpr hg0))
    obtain ⟨h1, h2⟩ := den_mul_monomial (m := m) hg0 (e := m.degree f - m.degree g) hc
    have hag : f = (f - g * a) + g * a := by ring
    rw [hag]
    refine Ideal.add_mem _ (ih _ ?_ (I.sub_mem hf (I.mul_mem_right _ (h.1 hg))) rfl)
      (Ideal.mul_mem_right _ _ (Ideal.subset_span hg))
    rw [← hd]
    refine wdeg_lt m hf0 fun hne => degree_sub_lt m ?_ ?_ hne
    · rw [h1, add_tsub_cancel_of_le hle]
    · rw [h2, mul_comm, mul_assoc, inv_mul_cancel₀ (m.leadingCoeff_ne_zero_iff.mpr hg0), mul_one]

/-! ## Reduced bases -/

/-- No monomial of an element of `G` is divisible by the leading monomial of another element. -/
def IsInterReduced (m : MonomialOrder σ) (G : Set (MvPolynomial σ K)) : Prop :=
  ∀ f ∈ G, ∀ g ∈ G, f ≠ g → ∀ e ∈ f.support, ¬ m.degree g ≤ e

/-- Two reduced Gröbner bases of an ideal agree up to nonzero scalars. -/
theorem IsGroebner.reduced_unique {I : Ideal (MvPolynomial σ K)} {G H : Set (MvPolynomial σ K)}
    (hG : IsGroebner m I G) (hH : IsGroebner m I H) (hG0 : 0 ∉ G)
    (hGr : IsInterReduced m G) (hHr : IsInterReduced m H) {g : MvPolynomial σ K} (hg : g ∈ G) :
    ∃ h ∈ H, (m.leadingCoeff g)⁻¹ • g = (m.leadingCoeff h)⁻¹ • h := by
  classical
  have hg0 : g ≠ 0 := fun h => hG0 (h ▸ hg)
  obtain ⟨h, hh, hh0, hle⟩ := hH.2 g (hG.1 hg) hg0
  obtain ⟨g', hg', hg0', hle'⟩ := hG.2 h (hH.1 hh) hh0
  have hgg : g' = g := by
    by_contra hne
    exact hGr g hg g' hg' (Ne.symm hne) _ (m.degree_mem_support hg0) (hle'.trans hle)
  subst hgg
  have hdeg : m.degree h = m.degree g' := le_antisymm hle hle'
  refine ⟨h, hh, ?_⟩
  have cg := m.leadingCoeff_ne_zero_iff.mpr hg0
  have ch := m.leadingCoeff_ne_zero_iff.mpr hh0
  rw [← sub_eq_zero]
  by_contra hne
  set p := (m.leadingCoeff g')⁻¹ • g' - (m.leadingCoeff h)⁻¹ • h with hp
  have hpI : p ∈ I := by
    rw [hp, smul_eq_C_mul, smul_eq_C_mul]
    exact I.sub_mem (I.mul_mem_left _ (hG.1 hg)) (I.mul_mem_left _ (hH.1 hh))
  have hsup : ∀ e ∈ p.support, e ∈ g'.support ∨ e ∈ h.support := by
    intro e he
    rcases Finset.mem_union.mp (support_sub _ _ _ he) with h' | h'
    · exact Or.inl (support_smul h')
    · exact Or.inr (support_smul h')
  have hlt : m.toSyn (m.degree p) < m.toSyn (m.degree g') := by
    refine degree_lt_of_coeff m hne (fun e he => ?_) ?_
    · rcases hsup e he with h' | h'
      · exact m.le_degree h'
      · rw [← hdeg]; exact m.le_degree h'
    · rw [hp, coeff_sub, coeff_smul, coeff_smul]
      have e1 : coeff (m.degree g') g' = m.leadingCoeff g' := rfl
      have e2 : coeff (m.degree g') h = m.leadingCoeff h := by rw [← hdeg]; rfl
      rw [e1, e2, smul_eq_mul, smul_eq_mul, inv_mul_cancel₀ cg, inv_mul_cancel₀ ch, sub_self]
  rcases hsup _ (m.degree_mem_support hne) with h' | h'
  · obtain ⟨u, hu, hu0, hule⟩ := hG.2 p hpI hne
    by_cases hug : u = g'
    · subst hug
      exact absurd (m.toSyn_monotone hule) (not_le.mpr hlt)
    · exact hGr g' hg u hu (Ne.symm hug) _ h' hule
  · obtain ⟨u, hu, hu0, hule⟩ := hH.2 p hpI hne
    by_cases huh : u = h
    · subst huh
      have := m.toSyn_monotone hule
      rw [hdeg] at this
      exact absurd this (not_le.mpr hlt)
    · exact hHr h hh u hu (Ne.symm huh) _ h' hule

/-! ## Termination: the monomial ideal of the leading monomials -/

/-- The ideal generated by the monomials with exponents in `S`. -/
noncomputable def monIdeal (K : Type) [Field K] (S : Set (σ →₀ ℕ)) : Ideal (MvPolynomial σ K) :=
  Ideal.span ((fun s => monomial s (1 : K)) '' S)

theorem monIdeal_lt {S : Set (σ →₀ ℕ)} {d : σ →₀ ℕ} (h : ∀ s ∈ S, ¬ s ≤ d) :
    monIdeal K S < monIdeal K (insert d S) := by
  classical
  refine lt_of_le_of_ne (Ideal.span_mono (Set.image_mono (Set.subset_insert _ _))) fun heq => ?_
  have hmem : monomial d (1 : K) ∈ monIdeal K (insert d S) :=
    Ideal.subset_span ⟨d, Set.mem_insert _ _, rfl⟩
  rw [← heq, monIdeal, mem_ideal_span_monomial_image] at hmem
  obtain ⟨s, hs, hle⟩ := hmem d (by rw [support_monomial, if_neg one_ne_zero]; simp)
  exact h s hs hle

end Verif
