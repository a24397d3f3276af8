import Verif.Props.Binomial
import Mathlib.Data.Finsupp.Interval
import Mathlib.Data.Set.Card

/-!
# Property C169: the size of a basis with finitely many standard monomials

Conventions as in `Props/Comp.lean`.
-/

namespace Verif
open Res MvPolynomial LawfulRField

section
variable {F : Type} [RField F] {K : Type} [Field K] [LawfulRField F K]
variable {n : ℕ} {O : MOrder} {m : MonomialOrder (Fin n)}

theorem sum_lt_prod {ι : Type} (s : Finset ι) (e : ι → ℕ) : ∑ i ∈ s, e i < ∏ i ∈ s, (e i + 1) := by
  classical
  induction s using Finset.induction_on with
  | empty => simp
  | insert a s ha ih =>
    rw [Finset.sum_insert ha, Finset.prod_insert ha]
    have : 1 ≤ ∏ i ∈ s, (e i + 1) := Nat.succ_le_of_lt (lt_of_le_of_lt (Nat.zero_le _) ih)
    nlinarith [Nat.mul_le_mul_left (e a) this]

/-- The monomials dividing a standard monomial are standard, hence its degree is below their number. -/
theorem standard_degree {G : List (Poly F)} (hfin : (Standard m G).Finite) {e : Fin n →₀ ℕ}
    (he : e ∈ Standard m G) : ∑ i, e i < (Standard m G).ncard := by
  classical
  have hsub : (↑(Finset.Iic e) : Set (Fin n →₀ ℕ)) ⊆ Standard m G := by
    intro d hd g hg hle
    exact he g hg (hle.trans (Finset.mem_Iic.mp hd))
  have h1 := Set.ncard_le_ncard hsub hfin
  rw [Set.ncard_coe_finset, Finsupp.card_Iic] at h1
  have h2 := sum_lt_prod e.support e
  have h3 : ∑ i, e i = ∑ i ∈ e.support, e i :=
    (Finset.sum_subset (Finset.subset_univ _) fun i _ hi => Finsupp.notMem_support_iff.mp hi).symm
  rw [h3]
  refine lt_of_lt_of_le h2 (le_trans (le_of_eq ?_) h1)
  exact Finset.prod_congr rfl fun i _ => by simp

/-- A leading monomial of a reduced basis divided by one of its variables is standard. -/
theorem corner_standard {G : List (Poly F)} (hok : GenOk (Fin n) G)
    (hr : IsInterReduced m (dens (Fin n) G : Set (MvPolynomial (Fin n) K))) {g : Poly F} (hg : g ∈ G) {i : Fin n}
    (hi : m.degree (Poly.den (Fin n) g : MvPolynomial (Fin n) K) i ≠ 0) :
    m.degree (Poly.den (Fin n) g : MvPolynomial (Fin n) K) - Finsupp.single i 1 ∈ Standard m G := by
  intro h hh hle
  by_cases heq : (Poly.den (Fin n) g : MvPolynomial (Fin n) K) = Poly.den (Fin n) h
  · rw [heq] at hle hi
    have := hle i
    rw [Finsupp.tsub_apply, Finsupp.single_eq_same] at this
    omega
  · exact hr _ (mem_dens hg) _ (mem_dens hh) heq _ (m.degree_mem_support (hok.den_ne hg))
      (hle.trans tsub_le_self)

/-- C169. If only `D` monomials are divisible by no leading monomial of the result, it has at most `n D`
elements if `D > 0` and one if `D = 0`, each leading monomial has total degree at most `D`, and each element
has at most `D + 1` terms. -/
theorem C169_size (hO : Implements O m) (gens : List (Poly F))
    (hg : ∀ g ∈ gens, Poly.Clean (Fin n) g ∧ Poly.den (Fin n) g ≠ (0 : MvPolynomial (Fin n) K)) :
    Spec (PolyPanic F) (Computer.buchbergerAlgorithm O gens) (fun G => (Standard m G).Finite →
      (0 < (Standard m G).ncard → G.length ≤ n * (Standard m G).ncard) ∧
      ((Standard m G).ncard = 0 → G.length = 1) ∧
      ∀ g ∈ G, ∑ i, m.degree (Poly.den (Fin n) g : MvPolynomial (Fin n) K) i ≤ (Standard m G).ncard ∧
        g.length ≤ (Standard m G).ncard + 1) := by
  classical
  refine (algorithm_spec hO gens hg (fun _ => True) trivial fun _ _ => trivial).imp fun G h hfin => ?_
  obtain ⟨hok, -, -, hinc, hr⟩ := h
  have hinj : ∀ g ∈ G, ∀ h ∈ G, m.degree (Poly.den (Fin n) h : MvPolynomial (Fin n) K) ≤
      m.degree (Poly.den (Fin n) g : MvPolynomial (Fin n) K) →
      (Poly.den (Fin n) g : MvPolynomial (Fin n) K) = Poly.den (Fin n) h := by
    intro g hg h hh hle
    by_contra hne
    exact hr _ (mem_dens hg) _ (mem_dens hh) hne _ (m.degree_mem_support (hok.den_ne hg)) hle
  -- the leading monomials are distinct
  have hlead : (G.map fun g => m.degree (Poly.den (Fin n) g : MvPolynomial (Fin n) K)).Nodup := by
    refine List.pairwise_map.mpr (hinc.imp ?_)
    intro g h hgh he
    exact hgh.1 he.le
  have hzero : (Standard m G).ncard = 0 → G.length = 1 := by
    intro h0
    have hemp : Standard m G = ∅ := (Set.ncard_eq_zero hfin).mp h0
    have hz : (0 : Fin n →₀ ℕ) ∉ Standard m G := by rw [hemp]; simp
    obtain ⟨g, hg, hle⟩ : ∃ g ∈ G, m.degree (Poly.den (Fin n) g : MvPolynomial (Fin n) K) ≤ 0 := by
      by_contra hno
      push Not at hno
      exact hz hno
    have hall : ∀ x ∈ G.map (fun g => m.degree (Poly.den (Fin n) g : MvPolynomial (Fin n) K)), x = 0 := by
      intro x hx
      obtain ⟨h, hh, rfl⟩ := List.mem_map.mp hx
      rw [hinj h hh g hg (hle.trans (by simp))]
      exact le_antisymm hle (by simp)
    have hle1 : G.length ≤ 1 := by
      rw [← List.length_map (f := fun g => m.degree (Poly.den (Fin n) g : MvPolynomial (Fin n) K)),
        ← List.toFinset_card_of_nodup hlead]
      refine Finset.card_le_one.mpr fun a ha b hb => ?_
      rw [hall a (List.mem_toFinset.mp ha), hall b (List.mem_toFinset.mp hb)]
    have := List.length_pos_of_mem hg
    omega
  refine ⟨fun hpos => ?_, hzero, fun g hgm => ⟨?_, ?_⟩⟩
  · -- every leading monomial is a variable times a standard monomial
    have hsub : (G.map fun g => m.degree (Poly.den (Fin n) g : MvPolynomial (Fin n) K)).toFinset ⊆
        (Finset.univ ×ˢ hfin.toFinset).image fun x : Fin n × (Fin n →₀ ℕ) => x.2 + Finsupp.single x.1 1 := by
      intro a ha
      obtain ⟨g, hg, rfl⟩ := List.mem_map.mp (List.mem_toFinset.mp ha)
      have hne : m.degree (Poly.den (Fin n) g : MvPolynomial (Fin n) K) ≠ 0 := by
        intro h0
        obtain ⟨e, he⟩ := (Set.ncard_pos hfin).mp hpos
        exact he g hg (by rw [h0]; simp)
      obtain ⟨i, hi⟩ := Finsupp.ne_iff.mp hne
      refine Finset.mem_image.mpr ⟨(i, m.degree (Poly.den (Fin n) g : MvPolynomial (Fin n) K) -
        Finsupp.single i 1), ?_, ?_⟩
      · simpa using corner_standard hok hr hg hi
      · refine tsub_add_cancel_of_le ?_
        rw [Finsupp.single_le_iff]
        exact Nat.one_le_iff_ne_zero.mpr hi
    have h1 := (Finset.card_le_card hsub).trans Finset.card_image_le
    rw [List.toFinset_card_of_nodup hlead, List.length_map, Finset.card_product, Finset.card_univ,
      Fintype.card_fin, ← Set.ncard_eq_toFinset_card _ hfin] at h1
    exact h1
  · by_cases h0 : m.degree (Poly.den (Fin n) g : MvPolynomial (Fin n) K) = 0
    · rw [h0]; simp
    · obtain ⟨i, hi⟩ := Finsupp.ne_iff.mp h0
      have h1 := standard_degree hfin (corner_standard hok hr hgm hi)
      have h2 : m.degree (Poly.den (Fin n) g : MvPolynomial (Fin n) K) =
          (m.degree (Poly.den (Fin n) g : MvPolynomial (Fin n) K) - Finsupp.single i 1) + Finsupp.single i 1 :=
        (tsub_add_cancel_of_le (by
          rw [Finsupp.single_le_iff]
          exact Nat.one_le_iff_ne_zero.mpr hi)).symm
      rw [h2]
      simp only [Finsupp.add_apply, Finset.sum_add_distrib]
      have h3 : ∑ j : Fin n, (Finsupp.single i 1 : Fin n →₀ ℕ) j = 1 := by
        simp [Finsupp.single_apply]
      omega
  · rw [length_eq_card (K := K) (hok g hgm).1]
    have hsub : (Poly.den (Fin n) g : MvPolynomial (Fin n) K).support ⊆
        insert (m.degree (Poly.den (Fin n) g : MvPolynomial (Fin n) K)) hfin.toFinset := by
      intro e he
      rw [Finset.mem_insert]
      by_cases hed : e = m.degree (Poly.den (Fin n) g : MvPolynomial (Fin n) K)
      · exact Or.inl hed
      · refine Or.inr (hfin.mem_toFinset.mpr fun h hh hle => ?_)
        by_cases heq : (Poly.den (Fin n) g : MvPolynomial (Fin n) K) = Poly.den (Fin n) h
        · rw [← heq] at hle
          exact hed (m.toSyn.injective (le_antisymm (m.le_degree he) (m.toSyn_monotone hle)))
        · exact hr _ (mem_dens hgm) _ (mem_dens hh) heq e he hle
    refine (Finset.card_le_card hsub).trans ((Finset.card_insert_le _ _).trans ?_)
    rw [← Set.ncard_eq_toFinset_card _ hfin]

/-- C169. The remainder modulo a Gröbner basis has at most `D` terms, each of total degree below `D`. -/
theorem C169_remainder (hO : Implements O m) (G : List (Poly F)) (hG : ∀ g ∈ G, Poly.Clean (Fin n) g ∧ g ≠ [])
    (hfin : (Standard m G).Finite) (f : Poly F) (hf : Poly.Clean (Fin n) f) :
    Spec (PolyPanic F) (Computer.divide O f G) (fun x => x.1.length ≤ (Standard m G).ncard ∧
      ∀ t ∈ x.1, ∑ i : Fin n, t.mdeg.deg i < (Standard m G).ncard) := by
  refine (divide_gens hO.poly polyPanic_allowed (fun g h => (hG g h).1) hf).imp ?_
  rintro ⟨r, qs⟩ ⟨hr, hred, -⟩
  dsimp only at hr hred ⊢
  have hst : ∀ e ∈ (Poly.den (Fin n) r : MvPolynomial (Fin n) K).support, e ∈ Standard m G := fun e he g hg hle =>
    (hred e he).2 _ (mem_dens hg) (fun h0 => (hG g hg).2 ((Poly.den_eq_zero_iff (hG g hg).1).mp h0)) hle
  refine ⟨?_, fun t ht => ?_⟩
  · rw [length_eq_card (K := K) hr, Set.ncard_eq_toFinset_card _ hfin]
    exact Finset.card_le_card fun e he => hfin.mem_toFinset.mpr (hst e he)
  · exact standard_degree hfin (hst _ ((Poly.mem_support_den hr).mpr ⟨t, ht, rfl⟩))

end

section examples

/-- The list `x^2, y^2` has four standard monomials: the hypothesis of
`C169_size` and `C169_remainder` is met. -/
example : letI := Rational.field .debug
    letI := Rational.lawful
    (Standard (K := ℚ) (OrdKind.lex.mathlib 2)
      ([[⟨⟨1, 1⟩, [2]⟩], [⟨⟨1, 1⟩, [0, 2]⟩]] : List (Poly Rational))).Finite := by
  let _ := Rational.field .debug
  let _ := Rational.lawful
  classical
  refine (Set.finite_Iic (Finsupp.equivFunOnFinite.symm fun _ => 1 : Fin 2 →₀ ℕ)).subset fun e he i => ?_
  have key : ∀ a : MDeg, ((OrdKind.lex.mathlib 2).degree
      (Poly.den (Fin 2) ([⟨⟨1, 1⟩, a⟩] : Poly Rational) : MvPolynomial (Fin 2) ℚ)) = MDeg.toF (Fin 2) a := by
    intro a
    have h1 : (val (⟨1, 1⟩ : Rational) : ℚ) = 1 := by change ((1 : Int) : ℚ) / ((1 : Int) : ℚ) = 1; norm_num
    rw [Poly.den_cons, Poly.den_nil, add_zero, Term.den, MonomialOrder.degree_monomial, h1, if_neg one_ne_zero]
  have h1 := he _ (List.mem_cons_self ..)
  have h2 := he _ (List.mem_cons_of_mem _ (List.mem_cons_self ..))
  rw [key] at h1 h2
  by_contra hlt
  have hlt : 2 ≤ e i := by
    have : 1 < e i := by simpa using not_le.mp hlt
    exact this
  fin_cases i
  · exact h1 fun j => by fin_cases j <;> first | exact hlt | exact Nat.zero_le _
  · exact h2 fun j => by fin_cases j <;> first | exact hlt | exact Nat.zero_le _

end examples
end Verif
