import Verif.Props.Division

/-!
# Property C181: the syzygies of a Gröbner basis are read off the divisions of the S-polynomials

Schreyer's theorem for the quotients that `divide` returns. Conventions as in `Props/Comp.lean`.
-/

namespace Verif
open Res MvPolynomial LawfulRField

section
variable {K : Type} [Field K] {n : ℕ} {ι : Type} [Fintype ι] [DecidableEq ι] (m : MonomialOrder (Fin n))

/-- The cofactor of `f` in the S-polynomial of `f` and `g`. -/
noncomputable def cofactor (f g : MvPolynomial (Fin n) K) : MvPolynomial (Fin n) K :=
  monomial (m.degree f ⊔ m.degree g - m.degree f) (m.leadingCoeff f)⁻¹

theorem coeff_cofactor (f g : MvPolynomial (Fin n) K) (hf : f ≠ 0) :
    coeff (m.degree f ⊔ m.degree g) (cofactor m f g * f) = 1 := by
  rw [cofactor, coeff_monomial_mul', if_pos tsub_le_self, tsub_tsub_cancel_of_le le_sup_left]
  exact inv_mul_cancel₀ (m.leadingCoeff_ne_zero_iff.mpr hf)

theorem coeff_cofactor_of_lt (f g : MvPolynomial (Fin n) K) {e : Fin n →₀ ℕ}
    (he : m.toSyn (m.degree f ⊔ m.degree g) < m.toSyn e) : coeff e (cofactor m f g * f) = 0 := by
  rw [cofactor, coeff_monomial_mul']
  split
  · rename_i h
    rw [m.coeff_eq_zero_of_lt, mul_zero]
    have h1 : m.degree f ⊔ m.degree g = (m.degree f ⊔ m.degree g - m.degree f) + m.degree f :=
      (tsub_add_cancel_of_le le_sup_left).symm
    have h2 : e = (m.degree f ⊔ m.degree g - m.degree f) + (e - (m.degree f ⊔ m.degree g - m.degree f)) :=
      (add_tsub_cancel_of_le h).symm
    rw [h1, h2, map_add, map_add] at he
    exact lt_of_add_lt_add_left he
  · rfl

/-- If every S-pair of `g` has a syzygy in `N` that is the S-pair up to terms of lower degree, `N` contains
all syzygies. -/
theorem syzygies_le {g : ι → MvPolynomial (Fin n) K} (hg : ∀ i, g i ≠ 0)
    (N : Submodule (MvPolynomial (Fin n) K) (ι → MvPolynomial (Fin n) K))
    (hN : ∀ t ∈ N, ∑ k, t k * g k = 0)
    (H : ∀ i j, i ≠ j → ∃ q : ι → MvPolynomial (Fin n) K,
      (Pi.single i (cofactor m (g i) (g j)) - Pi.single j (cofactor m (g j) (g i)) - q) ∈ N ∧
      ∀ k e, m.toSyn (m.degree (g i) ⊔ m.degree (g j)) ≤ m.toSyn e → coeff e (q k * g k) = 0)
    (h : ι → MvPolynomial (Fin n) K) (h0 : ∑ k, h k * g k = 0) : h ∈ N := by
  classical
  suffices key : ∀ s : m.syn, ∀ δ : Fin n →₀ ℕ, m.toSyn δ = s → ∀ c : ℕ, ∀ h : ι → MvPolynomial (Fin n) K,
      ∑ k, h k * g k = 0 → (∀ k e, m.toSyn δ < m.toSyn e → coeff e (h k * g k) = 0) →
      (Finset.univ.filter fun k => coeff δ (h k * g k) ≠ 0).card ≤ c → h ∈ N by
    by_cases hz : ∀ k, h k * g k = 0
    · have : h = 0 := funext fun k => (mul_eq_zero.mp (hz k)).resolve_right (hg k)
      rw [this]; exact N.zero_mem
    push Not at hz
    obtain ⟨k₀, hk₀⟩ := hz
    obtain ⟨k, -, hmax⟩ := Finset.exists_max_image Finset.univ (fun k => m.toSyn (m.degree (h k * g k))) ⟨k₀, by simp⟩
    exact key _ (m.degree (h k * g k)) rfl _ h h0
      (fun l e he => m.coeff_eq_zero_of_lt (lt_of_le_of_lt (hmax l (by simp)) he)) le_rfl
  intro s
  induction s using WellFoundedLT.induction with
  | ind s ihs =>
  intro δ hδ c
  induction c with
  | zero =>
    intro h h0 htop hc
    have hlt : ∀ k, coeff δ (h k * g k) = 0 := by
      intro k
      by_contra hk
      have : k ∈ Finset.univ.filter fun k => coeff δ (h k * g k) ≠ 0 :=
        Finset.mem_filter.mpr ⟨Finset.mem_univ _, hk⟩
      rw [Finset.card_eq_zero.mp (Nat.le_zero.mp hc)] at this
      simp at this
    by_cases hz : ∀ k, h k * g k = 0
    · have : h = 0 := funext fun k => (mul_eq_zero.mp (hz k)).resolve_right (hg k)
      rw [this]; exact N.zero_mem
    push Not at hz
    obtain ⟨k₀, hk₀⟩ := hz
    obtain ⟨k, hk, hmax⟩ := Finset.exists_max_image (Finset.univ.filter fun k => h k * g k ≠ 0)
      (fun k => m.toSyn (m.degree (h k * g k))) ⟨k₀, Finset.mem_filter.mpr ⟨Finset.mem_univ _, hk₀⟩⟩
    have hk := (Finset.mem_filter.mp hk).2
    refine ihs (m.toSyn (m.degree (h k * g k))) ?_ _ rfl _ h h0 (fun l e he => ?_) le_rfl
    · have hlc : coeff (m.degree (h k * g k)) (h k * g k) ≠ 0 := m.leadingCoeff_ne_zero_iff.mpr hk
      rw [← hδ]
      rcases lt_trichotomy (m.toSyn (m.degree (h k * g k))) (m.toSyn δ) with h' | h' | h'
      · exact h'
      · exact absurd (hlt k) (by rwa [← m.toSyn.injective h'])
      · exact absurd (htop k _ h') hlc
    · by_cases hl : h l * g l = 0
      · rw [hl, coeff_zero]
      · exact m.coeff_eq_zero_of_lt (lt_of_le_of_lt (hmax l (Finset.mem_filter.mpr ⟨Finset.mem_univ _, hl⟩)) he)
  | succ c ihc =>
    intro h h0 htop hc
    by_cases hex : ∃ i, coeff δ (h i * g i) ≠ 0
    swap
    · push Not at hex
      refine ihc h h0 htop ?_
      rw [Finset.filter_false_of_mem fun k _ => by simpa using hex k]
      simp
    obtain ⟨i, hi⟩ := hex
    obtain ⟨j, hji, hj⟩ : ∃ j, j ≠ i ∧ coeff δ (h j * g j) ≠ 0 := by
      by_contra hcon
      push Not at hcon
      have := congrArg (coeff δ) h0
      rw [coeff_sum, Finset.sum_eq_single i (fun j _ hj => hcon j hj) (by simp), coeff_zero] at this
      exact hi this
    have hle : ∀ k, coeff δ (h k * g k) ≠ 0 → m.degree (g k) ≤ δ := by
      intro k hk
      have hne : h k * g k ≠ 0 := fun e => hk (by rw [e, coeff_zero])
      have hd : m.degree (h k * g k) = δ := by
        rcases lt_trichotomy (m.toSyn (m.degree (h k * g k))) (m.toSyn δ) with h' | h' | h'
        · exact absurd (m.coeff_eq_zero_of_lt h') hk
        · exact m.toSyn.injective h'
        · exact absurd (htop k _ h') (m.leadingCoeff_ne_zero_iff.mpr hne)
      rw [m.degree_mul (left_ne_zero_of_mul hne) (hg k)] at hd
      rw [← hd]
      exact le_add_self
    obtain ⟨q, hqN, hq⟩ := H i j hji.symm
    set M := m.degree (g i) ⊔ m.degree (g j) with hM
    have hMδ : M ≤ δ := sup_le (hle i hi) (hle j hj)
    set a := coeff δ (h i * g i) with ha
    set t := Pi.single i (cofactor m (g i) (g j)) - Pi.single j (cofactor m (g j) (g i)) - q with ht
    set u : MvPolynomial (Fin n) K := monomial (δ - M) a with hu
    -- coefficients of the products with the monomial
    have hshift : ∀ (p : MvPolynomial (Fin n) K), coeff δ (u * p) = a * coeff M p := by
      intro p
      rw [hu, coeff_monomial_mul', if_pos tsub_le_self, tsub_tsub_cancel_of_le hMδ]
    have hshift' : ∀ (p : MvPolynomial (Fin n) K), (∀ e, m.toSyn M < m.toSyn e → coeff e p = 0) →
        ∀ e, m.toSyn δ < m.toSyn e → coeff e (u * p) = 0 := by
      intro p hp e he
      rw [hu, coeff_monomial_mul']
      split
      · rename_i hle
        rw [hp, mul_zero]
        have h1 : δ = (δ - M) + M := (tsub_add_cancel_of_le hMδ).symm
        have h2 : e = (δ - M) + (e - (δ - M)) := (add_tsub_cancel_of_le hle).symm
        rw [h1, h2, map_add, map_add] at he
        exact lt_of_add_lt_add_left he
      · rfl
    have htk : ∀ k, t k * g k = (if k = i then cofactor m (g i) (g j) * g i else 0) -
        (if k = j then cofactor m (g j) (g i) * g j else 0) - q k * g k := by
      intro k
      simp only [ht, Pi.sub_apply, Pi.single_apply, sub_mul]
      congr 2
      · split
        · rename_i e; rw [e]
        · rw [zero_mul]
      · split
        · rename_i e; rw [e]
        · rw [zero_mul]
    have htop_t : ∀ k e, m.toSyn M < m.toSyn e → coeff e (t k * g k) = 0 := by
      intro k e he
      rw [htk, coeff_sub, coeff_sub, hq k e he.le]
      have h1 : coeff e (if k = i then cofactor m (g i) (g j) * g i else 0) = 0 := by
        split
        · exact coeff_cofactor_of_lt m _ _ he
        · exact coeff_zero _
      have h2 : coeff e (if k = j then cofactor m (g j) (g i) * g j else 0) = 0 := by
        split
        · exact coeff_cofactor_of_lt m _ _ (by rwa [sup_comm])
        · exact coeff_zero _
      rw [h1, h2]; simp
    have hmul : ∀ k, (h - u • t) k * g k = h k * g k - u * (t k * g k) := by
      intro k
      rw [Pi.sub_apply, Pi.smul_apply, smul_eq_mul]; ring
    have hmem : h - u • t ∈ N := by
      refine ihc _ ?_ ?_ ?_
      · simp only [hmul, Finset.sum_sub_distrib, ← Finset.mul_sum]
        rw [h0, hN t hqN, mul_zero, sub_zero]
      · intro k e he
        rw [hmul, coeff_sub, htop k e he, hshift' _ (htop_t k) e he, sub_zero]
      · refine Nat.le_of_lt_succ (lt_of_lt_of_le (Finset.card_lt_card ?_) hc)
        rw [Finset.ssubset_iff_of_subset]
        · refine ⟨i, by simpa using hi, ?_⟩
          simp only [Finset.mem_filter, Finset.mem_univ, true_and, not_not]
          rw [hmul, coeff_sub, hshift, htk, coeff_sub, coeff_sub, hq i M le_rfl, if_pos rfl,
            if_neg (Ne.symm hji), coeff_cofactor m _ _ (hg i)]
          simp [ha]
        · intro k hk
          simp only [Finset.mem_filter, Finset.mem_univ, true_and] at hk ⊢
          rw [hmul, coeff_sub, hshift, htk, coeff_sub, coeff_sub, hq k M le_rfl] at hk
          intro hk0
          by_cases hki : k = i
          · rw [hki] at hk0; exact hi hk0
          by_cases hkj : k = j
          · rw [hkj] at hk0; exact hj hk0
          rw [hk0, if_neg hki, if_neg hkj] at hk
          simp at hk
    have := N.add_mem hmem (N.smul_mem u hqN)
    rwa [sub_add_cancel] at this

end

section
variable {F : Type} [RField F] {K : Type} [Field K] [LawfulRField F K] {n : ℕ}
variable {O : MOrder} {m : MonomialOrder (Fin n)}

/-- The syzygy that `divide` finds for the S-polynomial of the `i`-th and the `j`-th element of `G`, if it
returns the quotients `qs`. -/
noncomputable def divSyzygy (m : MonomialOrder (Fin n)) (G : List (Poly F)) (i j : Fin G.length) (qs : List (Poly F)) :
    Fin G.length → MvPolynomial (Fin n) K :=
  (Pi.single i (cofactor m (Poly.den (Fin n) (G.get i)) (Poly.den (Fin n) (G.get j))) :
      Fin G.length → MvPolynomial (Fin n) K) -
    Pi.single j (cofactor m (Poly.den (Fin n) (G.get j)) (Poly.den (Fin n) (G.get i))) -
    fun k : Fin G.length => Poly.den (Fin n) (qs.getD k [])

/-- **C181** Let `G` be a Gröbner basis without zeros, and let `divide` return the quotients `q i j` for the
S-polynomial of the elements `i < j`. All remainders are zero, and the syzygies obtained generate all
syzygies of `G`. -/
theorem C181_syzygies (hO : Implements O m) {G : List (Poly F)} (hG : GroebnerList m G)
    (hne : ∀ g ∈ G, Poly.den (Fin n) g ≠ 0) (s r : Fin G.length → Fin G.length → Poly F)
    (q : Fin G.length → Fin G.length → List (Poly F))
    (hs : ∀ i j, i < j → Computer.tryReduce O (G.get i) (G.get j) = .ok (some (s i j)))
    (hd : ∀ i j, i < j → Computer.divide O (s i j) G = .ok (r i j, q i j)) :
    (∀ i j, i < j → r i j = []) ∧
    ∀ h : Fin G.length → MvPolynomial (Fin n) K, ∑ k, h k * Poly.den (Fin n) (G.get k) = 0 ↔
      h ∈ Submodule.span (MvPolynomial (Fin n) K) {t | ∃ i j, i < j ∧ t = divSyzygy m G i j (q i j)} := by
  classical
  set g : Fin G.length → MvPolynomial (Fin n) K := fun k => Poly.den (Fin n) (G.get k) with hgdef
  have hg : ∀ k, g k ≠ 0 := fun k => hne _ (List.get_mem _ _)
  have hspec : ∀ i j, i < j → r i j = [] ∧
      cofactor m (g i) (g j) * g i - cofactor m (g j) (g i) * g j =
        ∑ k : Fin G.length, Poly.den (Fin n) ((q i j).getD k []) * g k ∧
      ∀ (k : Fin G.length) (e : Fin n →₀ ℕ), m.toSyn (m.degree (g i) ⊔ m.degree (g j)) ≤ m.toSyn e →
        coeff e (Poly.den (Fin n) ((q i j).getD k []) * g k) = 0 := by
    intro i j hij
    obtain ⟨-, h1⟩ := (C41_try_reduce hO _ _ (hG.1 _ (List.get_mem G i)) (hG.1 _ (List.get_mem G j))).of_ok (hs i j hij)
    obtain ⟨hsc, hsd, hslt⟩ := h1 _ rfl
    obtain ⟨hrc, hlen, hqc, hid⟩ := (C36_divide_identity hO _ G hsc hG.1).of_ok (hd i j hij)
    have hmemb := (C48_membership hO _ G hsc hG).of_ok (hd i j hij)
    obtain ⟨hdeg, -⟩ := (C38_degree_bound hO _ G hsc hG.1).of_ok (hd i j hij)
    obtain ⟨-, hdiv⟩ := (C120_determinate hO _ G hsc hG.1).of_ok (hd i j hij)
    have hcof : (Poly.den (Fin n) (s i j) : MvPolynomial (Fin n) K) =
        cofactor m (g i) (g j) * g i - cofactor m (g j) (g i) * g j := by
      rw [hsd, cofactor, cofactor, sup_comm (m.degree (g j))]
    have hr0 : r i j = [] := by
      have hin : (Poly.den (Fin n) (s i j) : MvPolynomial (Fin n) K) ∈ Ideal.span (dens (Fin n) G) := by
        rw [hcof]
        exact Ideal.sub_mem _ (Ideal.mul_mem_left _ _ (Ideal.subset_span (mem_dens (List.get_mem G i))))
          (Ideal.mul_mem_left _ _ (Ideal.subset_span (mem_dens (List.get_mem G j))))
      have := hmemb.mpr hin
      rw [Poly.isZero_iff hrc] at this
      exact (Poly.den_eq_zero_iff hrc).mp this
    refine ⟨hr0, ?_, ?_⟩
    · rw [← hcof, hid, hr0, combination_eq_sum _ _ hlen]
      exact add_zero _
    · intro k e he
      by_cases h0 : (Poly.den (Fin n) (s i j) : MvPolynomial (Fin n) K) = 0
      · rw [h0] at hdiv
        have : (Poly.den (Fin n) ((q i j).getD k []) : MvPolynomial (Fin n) K) = 0 := congrFun hdiv.of_zero.1 k
        rw [this, zero_mul, coeff_zero]
      · refine m.coeff_eq_zero_of_lt (lt_of_le_of_lt (hdeg (((q i j).getD k []), G.get k) ?_) (lt_of_lt_of_le
          (hslt _ (m.degree_mem_support h0)) he))
        have hk : (k : ℕ) < (q i j).length := by rw [hlen]; exact k.2
        rw [List.getD_eq_getElem _ _ hk]
        have : ((q i j)[(k : ℕ)], G.get k) = ((q i j).zip G)[(k : ℕ)]'(by simp [hk]) := by simp
        rw [this]
        exact List.getElem_mem _
  refine ⟨fun i j hij => (hspec i j hij).1, fun h => ?_⟩
  set N := Submodule.span (MvPolynomial (Fin n) K)
    {t : Fin G.length → MvPolynomial (Fin n) K | ∃ i j, i < j ∧ t = divSyzygy m G i j (q i j)} with hNdef
  have hN : ∀ t ∈ N, ∑ k, t k * g k = 0 := by
    intro t ht
    induction ht using Submodule.span_induction with
    | mem t ht =>
      obtain ⟨i, j, hij, rfl⟩ := ht
      simp only [divSyzygy, Pi.sub_apply, sub_mul, Finset.sum_sub_distrib]
      rw [← (hspec i j hij).2.1]
      simp [Pi.single_apply, hgdef]
    | zero => simp
    | add s t _ _ hs ht => simp only [Pi.add_apply, add_mul, Finset.sum_add_distrib, hs, ht, add_zero]
    | smul a s _ hs => simp only [Pi.smul_apply, smul_eq_mul, mul_assoc, ← Finset.mul_sum, hs, mul_zero]
  refine ⟨fun h0 => syzygies_le m hg N hN ?_ h h0, hN h⟩
  intro i j hij
  rcases lt_or_gt_of_ne hij with hlt | hlt
  · exact ⟨_, Submodule.subset_span ⟨i, j, hlt, rfl⟩, (hspec i j hlt).2.2⟩
  · refine ⟨fun k => - Poly.den (Fin n) ((q j i).getD k []), ?_, fun k e he => ?_⟩
    · have : divSyzygy m G j i (q j i) ∈ N := Submodule.subset_span ⟨j, i, hlt, rfl⟩
      have := N.neg_mem this
      convert this using 1
      simp only [divSyzygy]
      ext1 k
      simp only [Pi.sub_apply, Pi.neg_apply]
      ring
    · rw [sup_comm] at he
      rw [neg_mul, coeff_neg, (hspec j i hlt).2.2 k e he, neg_zero]

/-- **C181** In particular this holds for every list that `buchberger_criterion` accepts. -/
theorem C181_accepted (hO : Implements O m) {G : List (Poly F)}
    (hg : ∀ g ∈ G, Poly.Clean (Fin n) g ∧ Poly.den (Fin n) g ≠ 0)
    (hG : Computer.buchbergerCriterion O G = .ok true) (s r : Fin G.length → Fin G.length → Poly F)
    (q : Fin G.length → Fin G.length → List (Poly F))
    (hs : ∀ i j, i < j → Computer.tryReduce O (G.get i) (G.get j) = .ok (some (s i j)))
    (hd : ∀ i j, i < j → Computer.divide O (s i j) G = .ok (r i j, q i j))
    (h : Fin G.length → MvPolynomial (Fin n) K) :
    ∑ k, h k * Poly.den (Fin n) (G.get k) = 0 ↔
      h ∈ Submodule.span (MvPolynomial (Fin n) K) {t | ∃ i j, i < j ∧ t = divSyzygy m G i j (q i j)} := by
  refine (C181_syzygies hO ⟨fun g h => (hg g h).1, fun f hf h0 => ?_⟩ (fun g h => (hg g h).2) s r q hs hd).2 h
  obtain ⟨g, hgm, hle⟩ := ((C42_criterion hO G hg).of_ok hG).mp rfl f hf h0
  exact ⟨g, hgm, (hg g hgm).2, hle⟩

end

section examples

/-- `x - y^2` -/
private def exA : Poly Rational := [⟨⟨1, 1⟩, [1]⟩, ⟨⟨-1, 1⟩, [0, 2]⟩]
/-- `y^3 - 1` -/
private def exB : Poly Rational := [⟨⟨1, 1⟩, [0, 3]⟩, ⟨⟨-1, 1⟩, []⟩]

/-- The S-polynomial of `x - y^2` and `y^3 - 1` is `-y^5 + x`, and the quotients are `1` and `-y^2`: the
syzygies are generated by `(y^3 - 1, -x + y^2)`. -/
example : letI := Rational.field .debug
    letI := Rational.lawful
    (∀ p ∈ [exA, exB], Poly.Clean (Fin 2) p ∧ Poly.den (Fin 2) p ≠ (0 : MvPolynomial (Fin 2) ℚ)) ∧
    Computer.buchbergerCriterion (OrdKind.lex.order .debug) [exA, exB] = .ok true ∧
    Computer.tryReduce (OrdKind.lex.order .debug) exA exB = .ok (some [⟨⟨-1, 1⟩, [0, 5]⟩, ⟨⟨1, 1⟩, [1]⟩]) ∧
    Computer.divide (F := Rational) (OrdKind.lex.order .debug) [⟨⟨-1, 1⟩, [0, 5]⟩, ⟨⟨1, 1⟩, [1]⟩] [exA, exB] =
      .ok ([], [[⟨⟨1, 1⟩, []⟩], [⟨⟨-1, 1⟩, [0, 2]⟩]]) := by
  let _ := Rational.field .debug
  let _ := Rational.lawful
  exact ⟨sampleGens (by decide),
    (Computer.buchbergerCriterionN_approx 30 _).eq (by decide +kernel) (by simp), by decide +kernel,
    (Computer.divideN_approx 30 _ _).eq (by decide +kernel) (by simp)⟩

end examples

end Verif
