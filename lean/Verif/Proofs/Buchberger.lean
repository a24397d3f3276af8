import Verif.Proofs.Groebner

/-! # Buchberger's algorithm -/

namespace Verif
open Res MvPolynomial LawfulRField

variable {F : Type} [RField F] {K : Type} [Field K] [LawfulRField F K] {σ : Type} [VarIdx σ]
variable {E : Panic → Prop} {O : MOrder} {m : MonomialOrder σ} {B : (σ →₀ ℕ) → Prop}

/-- The set of denotations of a list of polynomials. -/
noncomputable def dens (σ : Type) [VarIdx σ] (gens : List (Poly F)) : Set (MvPolynomial σ K) :=
  {p | ∃ g ∈ gens, p = Poly.den σ g}

/-- Canonical nonzero generators. -/
def GenOk (σ : Type) [VarIdx σ] (gens : List (Poly F)) : Prop :=
  ∀ g ∈ gens, Poly.Clean σ g ∧ g ≠ []

theorem GenOk.den_ne {gens : List (Poly F)} (h : GenOk σ gens) {g : Poly F} (hg : g ∈ gens) :
    Poly.den σ g ≠ 0 := by
  rw [Ne, Poly.den_eq_zero_iff (h g hg).1]; exact (h g hg).2

theorem mem_dens {gens : List (Poly F)} {g : Poly F} (hg : g ∈ gens) :
    Poly.den σ g ∈ dens σ gens := ⟨g, hg, rfl⟩

theorem mem_pairsIter {n i j : ℕ} :
    (i, j) ∈ Computer.pairsIter n ↔ i < n ∧ j < n ∧ i ≠ j := by
  simp [Computer.pairsIter, and_assoc]

theorem index_spec {α : Type} {E : Panic → Prop} {l : List α} {i : ℕ} (h : i < l.length) :
    Spec E (Computer.index l i) (fun a => a = l[i]) := by
  unfold Computer.index
  rw [List.getElem?_eq_getElem h]
  exact rfl

omit [RField F] in
theorem in_true {p : Poly F} : Poly.In (σ := σ) (fun _ => True) p := fun _ _ => trivial

/-- The leading exponent of a nonzero polynomial in the region is in the region. -/
theorem Poly.In.degree {p : Poly F} (hB : Poly.In B p) (hp : Poly.Clean σ p) (h0 : p ≠ []) :
    B (m.degree (Poly.den σ p)) :=
  (Poly.in_iff hp).mp hB _ (m.degree_mem_support (by rwa [Ne, Poly.den_eq_zero_iff hp]))

theorem LawfulOrder.zero (hO : LawfulOrder O m B E) {p : Poly F} (hB : Poly.In B p)
    (hp : Poly.Clean σ p) (h0 : p ≠ []) : B 0 :=
  hO.down _ _ (hB.degree (m := m) hp h0) (by rw [map_zero]; exact bot_le)

/-- `divide` by nonzero canonical generators. -/
theorem divide_gens_in (hO : LawfulOrder O m B E) (hE : ∀ p, allowed F p → E p) (hB0 : B 0)
    {gens : List (Poly F)} (hg : ∀ g ∈ gens, Poly.Clean σ g) (hgB : ∀ g ∈ gens, Poly.In B g)
    {f : Poly F} (hf : Poly.Clean σ f) (hfB : Poly.In B f) :
    Spec E (Computer.divide O f gens) (fun x => Poly.Clean σ x.1 ∧
      (∀ e ∈ (Poly.den σ x.1).support, m.toSyn e ≤ m.toSyn (m.degree (Poly.den σ f)) ∧
        ∀ p ∈ dens σ gens, p ≠ 0 → ¬ m.degree p ≤ e) ∧
      Poly.den σ f - Poly.den σ x.1 ∈ Ideal.span (dens σ gens) ∧
      Poly.den σ f - Poly.den σ x.1 ∈
        Below m (dens σ gens) (· ≤ m.toSyn (m.degree (Poly.den σ f))) ∧ Poly.In B x.1) := by
  refine (divide_spec hO hE hf hfB fun g h => ⟨hg g h, hgB g h⟩).imp ?_
  rintro ⟨r, qs⟩ ⟨h1, h2, L, hL1, hL2, hL3, hL4⟩
  have hsum : Poly.den σ f - Poly.den σ r =
      (L.map fun y => Poly.den σ y.2 * Poly.den σ y.1).sum := by rw [hL4]; ring
  have hmem : ∀ y ∈ L, Poly.den σ y.1 ∈ dens σ gens := by
    intro y hy
    refine mem_dens ?_
    rw [← hL1]; exact List.mem_map.mpr ⟨y, hy, rfl⟩
  refine ⟨h1, fun e he => ⟨(h2 e he).1, ?_⟩, ?_, ?_, ?_⟩
  · rintro p ⟨g, hgm, rfl⟩ hp
    refine (h2 e he).2 g hgm fun h => hp ?_
    rw [h]; rfl
  · rw [hsum]
    refine list_sum_mem ?_
    intro x hx
    obtain ⟨y, hy, rfl⟩ := List.mem_map.mp hx
    exact Ideal.mul_mem_left _ _ (Ideal.subset_span (hmem y hy))
  · rw [hsum]
    refine list_sum_mem ?_
    intro x hx
    obtain ⟨y, hy, rfl⟩ := List.mem_map.mp hx
    exact mul_mem_below (fun a b hab hb => hab.trans hb) (hmem y hy) fun _ _ => (hL3 y hy).2
  · rw [Poly.in_iff h1]
    intro e he
    refine hO.down _ _ ?_ (h2 e he).1
    by_cases h0 : f = []
    · rw [h0, Poly.den_nil, m.degree_zero]; exact hB0
    · exact hfB.degree hf h0

theorem divide_gens (hO : LawfulOrder O m (fun _ => True) E) (hE : ∀ p, allowed F p → E p)
    {gens : List (Poly F)} (hg : ∀ g ∈ gens, Poly.Clean σ g) {f : Poly F} (hf : Poly.Clean σ f) :
    Spec E (Computer.divide O f gens) (fun x => Poly.Clean σ x.1 ∧
      (∀ e ∈ (Poly.den σ x.1).support, m.toSyn e ≤ m.toSyn (m.degree (Poly.den σ f)) ∧
        ∀ p ∈ dens σ gens, p ≠ 0 → ¬ m.degree p ≤ e) ∧
      Poly.den σ f - Poly.den σ x.1 ∈ Ideal.span (dens σ gens) ∧
      Poly.den σ f - Poly.den σ x.1 ∈
        Below m (dens σ gens) (· ≤ m.toSyn (m.degree (Poly.den σ f)))) :=
  (divide_gens_in hO hE trivial hg (fun _ _ => in_true) hf in_true).imp fun _ h =>
    ⟨h.1, h.2.1, h.2.2.1, h.2.2.2.1⟩

/-- The S-polynomial of two generators and its remainder. -/
theorem spair_step_in (hO : LawfulOrder O m B E) (hE : ∀ p, allowed F p → E p)
    {f g : Poly F} (hf : Poly.Clean σ f) (hf0 : f ≠ []) (hg : Poly.Clean σ g) (hg0 : g ≠ [])
    (hfB : Poly.In B f) (hgB : Poly.In B g)
    (hB : B (m.degree (Poly.den σ f) ⊔ m.degree (Poly.den σ g))) :
    Spec E (Computer.tryReduce O f g) (fun o => ∃ s, o = some s ∧ Poly.Clean σ s ∧
      Poly.den σ s = spair m (Poly.den σ f) (Poly.den σ g) ∧
      (∀ e ∈ (Poly.den σ s).support,
        m.toSyn e < m.toSyn (m.degree (Poly.den σ f) ⊔ m.degree (Poly.den σ g))) ∧
      Poly.In B s) := by
  refine (tryReduce_spec hO hE hf hfB hg hgB fun _ _ => hB).imp ?_
  rintro (_ | s) h
  · exact absurd h (by simp [hf0, hg0])
  · exact ⟨s, rfl, h.2.2.1, h.2.2.2.1, h.2.2.2.2, (Poly.in_iff h.2.2.1).mpr fun e he =>
      hO.down _ _ hB (h.2.2.2.2 e he).le⟩

theorem spair_step (hO : LawfulOrder O m (fun _ => True) E) (hE : ∀ p, allowed F p → E p)
    {f g : Poly F} (hf : Poly.Clean σ f) (hf0 : f ≠ []) (hg : Poly.Clean σ g) (hg0 : g ≠ []) :
    Spec E (Computer.tryReduce O f g) (fun o => ∃ s, o = some s ∧ Poly.Clean σ s ∧
      Poly.den σ s = spair m (Poly.den σ f) (Poly.den σ g) ∧
      ∀ e ∈ (Poly.den σ s).support,
        m.toSyn e < m.toSyn (m.degree (Poly.den σ f) ⊔ m.degree (Poly.den σ g))) :=
  (spair_step_in hO hE hf hf0 hg hg0 in_true in_true trivial).imp fun _ ⟨s, h1, h2, h3, h4, _⟩ =>
    ⟨s, h1, h2, h3, h4⟩

omit [VarIdx σ] in
theorem below_of_rem_zero {G : Set (MvPolynomial σ K)} {s : MvPolynomial σ K} {d : m.syn}
    (hs : ∀ e ∈ s.support, m.toSyn e < d) (h : s ∈ Below m G (· ≤ m.toSyn (m.degree s))) :
    s ∈ Below m G (· < d) := by
  by_cases h0 : s = 0
  · rw [h0]; exact Submodule.zero_mem _
  · exact Below.mono (le_refl _) (fun a ha => lt_of_le_of_lt ha (hs _ (m.degree_mem_support h0))) h

/-- The pair `(i, j)` is fine: its S-polynomial has a representation below the lcm. -/
def PairOk (m : MonomialOrder σ) (gens : List (Poly F)) (x : ℕ × ℕ) : Prop :=
  ∀ (hi : x.1 < gens.length) (hj : x.2 < gens.length),
    spair m (Poly.den σ gens[x.1]) (Poly.den σ gens[x.2]) ∈ Below m (dens σ gens)
      (· < m.toSyn (m.degree (Poly.den σ gens[x.1]) ⊔ m.degree (Poly.den σ gens[x.2])))

/-- The generators and the least common multiples of their leading monomials are in the region. -/
structure GensIn (m : MonomialOrder σ) (B : (σ →₀ ℕ) → Prop) (gens : List (Poly F)) : Prop where
  gens_in : ∀ g ∈ gens, Poly.In B g
  lcm_in : ∀ f ∈ gens, ∀ g ∈ gens, B (m.degree (Poly.den σ f) ⊔ m.degree (Poly.den σ g))

theorem gensIn_true {gens : List (Poly F)} : GensIn m (fun _ => True) gens :=
  ⟨fun _ _ => in_true, fun _ _ _ _ => trivial⟩

theorem criterionFor_spec (hO : LawfulOrder O m B E) (hE : ∀ p, allowed F p → E p)
    {gens : List (Poly F)} (hg : GenOk σ gens) (hB : GensIn m B gens) (L : List (ℕ × ℕ))
    (hL : ∀ x ∈ L, x.1 < gens.length ∧ x.2 < gens.length) :
    Spec E (Computer.criterionFor O gens L) (fun b =>
      (b = true → ∀ x ∈ L, PairOk m gens x) ∧
      (b = false → ¬ IsGroebner m (Ideal.span (dens σ gens)) (dens σ gens))) := by
  induction L with
  | nil => exact ⟨by simp, by simp⟩
  | cons x rest ih =>
    obtain ⟨i, j⟩ := x
    obtain ⟨hi, hj⟩ := hL (i, j) (by simp)
    simp only at hi hj
    unfold Computer.criterionFor
    refine (index_spec hi).bind ?_
    rintro gi rfl
    refine (index_spec hj).bind ?_
    rintro gj rfl
    have mi := List.getElem_mem hi
    have mj := List.getElem_mem hj
    refine (spair_step_in hO hE (hg _ mi).1 (hg _ mi).2 (hg _ mj).1 (hg _ mj).2 (hB.gens_in _ mi)
      (hB.gens_in _ mj) (hB.lcm_in _ mi _ mj)).bind ?_
    rintro _ ⟨s, rfl, hs, hden, hlt, hsB⟩
    refine (divide_gens_in hO hE (hO.zero (hB.gens_in _ mi) (hg _ mi).1 (hg _ mi).2)
      (fun g h => (hg g h).1) hB.gens_in hs hsB).bind ?_
    rintro ⟨r, qs⟩ ⟨hr, hred, hspan, hbelow, hrB⟩
    simp only at hr hred hspan hbelow hrB
    have hsp : Poly.den σ s ∈ Ideal.span (dens σ gens) := by
      rw [hden]
      exact spair_mem (Ideal.subset_span (mem_dens mi)) (Ideal.subset_span (mem_dens mj))
    simp only
    split
    · rename_i hz
      refine ⟨by simp, fun _ hG => ?_⟩
      have hrm : Poly.den σ r ∈ Ideal.span (dens σ gens) := by
        have := Ideal.sub_mem _ hsp hspan
        rwa [sub_sub_cancel] at this
      have := hG.eq_zero hrm fun e he => (hred e he).2
      rw [← Poly.isZero_iff hr] at this
      simp [this] at hz
    · rename_i hz
      refine (ih fun x hx => hL x (by simp [hx])).imp fun b hb => ⟨fun hbt => ?_, hb.2⟩
      intro x hx
      rcases List.mem_cons.mp hx with rfl | hx
      · intro _ _
        have h0 : Poly.den σ r = 0 := by
          rw [← Poly.isZero_iff hr]; simpa using hz
        rw [h0, sub_zero] at hbelow
        have := below_of_rem_zero hlt hbelow
        rw [hden] at this
        exact this
      · exact hb.1 hbt x hx

/-- From pairs of indices to pairs of elements. -/
theorem groebner_of_pairs {gens : List (Poly F)}
    (h : ∀ i j, j < i → i < gens.length → PairOk m gens (i, j)) :
    IsGroebner m (Ideal.span (dens σ gens)) (dens σ gens) := by
  refine buchberger ?_
  rintro _ ⟨f, hf, rfl⟩ _ ⟨g, hg, rfl⟩ _ _
  obtain ⟨i, hi, rfl⟩ := List.mem_iff_getElem.mp hf
  obtain ⟨j, hj, rfl⟩ := List.mem_iff_getElem.mp hg
  rcases lt_trichotomy j i with hlt | rfl | hgt
  · exact h i j hlt hi hi hj
  · rw [spair_self]; exact Submodule.zero_mem _
  · have := h j i hgt hj hj hi
    simp only at this
    rw [spair_comm, sup_comm]
    exact Submodule.neg_mem _ this

theorem buchbergerCriterion_spec_in (hO : LawfulOrder O m B E)
    (hE : ∀ p, allowed F p → E p) {gens : List (Poly F)} (hg : GenOk σ gens)
    (hB : GensIn m B gens) :
    Spec E (Computer.buchbergerCriterion O gens) (fun b =>
      b = true ↔ IsGroebner m (Ideal.span (dens σ gens)) (dens σ gens)) := by
  unfold Computer.buchbergerCriterion
  refine (criterionFor_spec hO hE hg hB _ ?_).imp ?_
  · rintro ⟨i, j⟩ hx
    have := mem_pairsIter.mp hx
    exact ⟨this.1, this.2.1⟩
  · intro b hb
    constructor
    · intro hbt
      refine groebner_of_pairs fun i j hji hi => hb.1 hbt (i, j) ?_
      exact mem_pairsIter.mpr ⟨hi, by omega, by omega⟩
    · intro hG
      by_contra hbf
      exact hb.2 (by simpa using hbf) hG

theorem buchbergerCriterion_spec (hO : LawfulOrder O m (fun _ => True) E)
    (hE : ∀ p, allowed F p → E p) {gens : List (Poly F)} (hg : GenOk σ gens) :
    Spec E (Computer.buchbergerCriterion O gens) (fun b =>
      b = true ↔ IsGroebner m (Ideal.span (dens σ gens)) (dens σ gens)) :=
  buchbergerCriterion_spec_in hO hE hg gensIn_true

/-! ## `buchberger_extend` -/

theorem extendFor_spec_in (hO : LawfulOrder O m B E) (hE : ∀ p, allowed F p → E p)
    {gens : List (Poly F)} (hg : GenOk σ gens) (hB : GensIn m B gens) {i : ℕ} (hi : i < gens.length) (L : List ℕ)
    (hL : ∀ j ∈ L, j < gens.length) :
    Spec E (Computer.extendFor O gens i L) (fun o => match o with
      | none => ∀ j ∈ L, PairOk m gens (i, j)
      | some r => Poly.Clean σ r ∧ r ≠ [] ∧ Poly.den σ r ∈ Ideal.span (dens σ gens) ∧
          m.leadingCoeff (Poly.den σ r) = 1 ∧
          (∀ p ∈ dens σ gens, p ≠ 0 → ¬ m.degree p ≤ m.degree (Poly.den σ r)) ∧ Poly.In B r) := by
  induction L with
  | nil => intro j hj; simp at hj
  | cons j rest ih =>
    have hj := hL j (by simp)
    unfold Computer.extendFor
    refine (index_spec hi).bind ?_
    rintro gi rfl
    refine (index_spec hj).bind ?_
    rintro gj rfl
    have mi := List.getElem_mem hi
    have mj := List.getElem_mem hj
    refine (spair_step_in hO hE (hg _ mi).1 (hg _ mi).2 (hg _ mj).1 (hg _ mj).2 (hB.gens_in _ mi)
      (hB.gens_in _ mj) (hB.lcm_in _ mi _ mj)).bind ?_
    rintro _ ⟨s, rfl, hs, hden, hlt, hsB⟩
    refine (divide_gens_in hO hE (hO.zero (hB.gens_in _ mi) (hg _ mi).1 (hg _ mi).2)
      (fun g h => (hg g h).1) hB.gens_in hs hsB).bind ?_
    rintro ⟨r, qs⟩ ⟨hr, hred, hspan, hbelow, hrB⟩
    simp only at hr hred hspan hbelow hrB ⊢
    have hsp : Poly.den σ s ∈ Ideal.span (dens σ gens) := by
      rw [hden]
      exact spair_mem (Ideal.subset_span (mem_dens mi)) (Ideal.subset_span (mem_dens mj))
    have hrm : Poly.den σ r ∈ Ideal.span (dens σ gens) := by
      have := Ideal.sub_mem _ hsp hspan
      rwa [sub_sub_cancel] at this
    refine (leadingCoef_spec hO hr hrB).bind ?_
    rintro (_ | lc) hlc
    · simp only at hlc
      refine (ih fun x hx => hL x (by simp [hx])).imp ?_
      rintro (_ | r') h
      · intro k hk
        rcases List.mem_cons.mp hk with rfl | hk
        · intro _ _
          rw [hlc, Poly.den_nil, sub_zero] at hbelow
          have := below_of_rem_zero hlt hbelow
          rw [hden] at this
          exact this
        · exact h k hk
      · exact h
    · obtain ⟨hrne, hwf, hv, hlcv⟩ := hlc
      refine ((Poly.divCoef_spec hr hwf hv).mono hE fun _ h => h).bind fun r' hr' => ?_
      have hden' : Poly.den σ r' = (val lc : K)⁻¹ • Poly.den σ r := by rw [smul_eq_C_mul]; exact hr'.2
      have hr0 : Poly.den σ r ≠ 0 := by rwa [Ne, Poly.den_eq_zero_iff hr]
      have hdeg : m.degree (Poly.den σ r') = m.degree (Poly.den σ r) := by
        rw [hden']
        exact m.degree_smul_of_mem_nonZeroDivisors (mem_nonZeroDivisors_of_ne_zero (inv_ne_zero hv))
      refine ⟨hr'.1, ?_, ?_, ?_, ?_, ?_⟩
      · rintro rfl
        rw [Poly.den_nil] at hden'
        exact smul_ne_zero (inv_ne_zero hv) hr0 hden'.symm
      · rw [hden', smul_eq_C_mul]; exact Ideal.mul_mem_left _ _ hrm
      · unfold MonomialOrder.leadingCoeff
        rw [hdeg, hden', coeff_smul]
        change _ • m.leadingCoeff (Poly.den σ r) = _
        rw [← hlcv, smul_eq_mul, inv_mul_cancel₀ hv]
      · intro p hp hp0
        rw [hdeg]
        exact (hred _ (m.degree_mem_support hr0)).2 p hp hp0
      · rw [Poly.in_iff hr'.1, hden']
        intro e he
        exact (Poly.in_iff hr).mp hrB e (support_smul he)

theorem extendFor_spec (hO : LawfulOrder O m (fun _ => True) E) (hE : ∀ p, allowed F p → E p)
    {gens : List (Poly F)} (hg : GenOk σ gens) {i : ℕ} (hi : i < gens.length) (L : List ℕ)
    (hL : ∀ j ∈ L, j < gens.length) :
    Spec E (Computer.extendFor O gens i L) (fun o => match o with
      | none => ∀ j ∈ L, PairOk m gens (i, j)
      | some r => Poly.Clean σ r ∧ r ≠ [] ∧ Poly.den σ r ∈ Ideal.span (dens σ gens) ∧
          m.leadingCoeff (Poly.den σ r) = 1 ∧
          ∀ p ∈ dens σ gens, p ≠ 0 → ¬ m.degree p ≤ m.degree (Poly.den σ r)) := by
  refine (extendFor_spec_in hO hE hg gensIn_true hi L hL).imp ?_
  rintro (_ | r) h
  · exact h
  · exact ⟨h.1, h.2.1, h.2.2.1, h.2.2.2.1, h.2.2.2.2.1⟩

/-- The leading exponents of a list of generators. -/
def leads (m : MonomialOrder σ) (gens : List (Poly F)) : Set (σ →₀ ℕ) :=
  {d | ∃ g ∈ gens, d = m.degree (Poly.den σ g)}

theorem dens_append_singleton (gens : List (Poly F)) (r : Poly F) :
    (dens σ (gens ++ [r]) : Set (MvPolynomial σ K)) = insert (Poly.den σ r) (dens σ gens) := by
  ext p
  simp only [dens, List.mem_append, List.mem_singleton, Set.mem_ofPred_eq, Set.mem_insert_iff]
  constructor
  · rintro ⟨g, hg | rfl, rfl⟩
    · exact Or.inr ⟨g, hg, rfl⟩
    · exact Or.inl rfl
  · rintro (rfl | ⟨g, hg, rfl⟩)
    · exact ⟨r, Or.inr rfl, rfl⟩
    · exact ⟨g, Or.inl hg, rfl⟩

theorem buchbergerExtend_spec_in [Finite σ] (hO : LawfulOrder O m B E)
    (hE : ∀ p, allowed F p → E p) {gens : List (Poly F)} (hg : GenOk σ gens)
    (hgB : ∀ g ∈ gens, Poly.In B g)
    (hB : ∀ G, GenOk σ G → (∀ g ∈ G, Poly.In B g) →
      (G = gens ∨ ¬ IsGroebner m (Ideal.span (dens σ gens)) (dens σ gens)) → GensIn m B G) (M : K → Prop)
    (hM1 : M 1) (hM : ∀ g ∈ gens, M (m.leadingCoeff (Poly.den σ g))) :
    Spec E (Computer.buchbergerExtend O gens) (fun G => GenOk σ G ∧
      IsGroebner m (Ideal.span (dens σ gens)) (dens σ G) ∧
      (∀ g ∈ G, M (m.leadingCoeff (Poly.den σ g))) ∧ ∀ g ∈ G, Poly.In B g) := by
  classical
  unfold Computer.buchbergerExtend
  have : IsNoetherianRing K := inferInstance
  have : IsNoetherianRing (MvPolynomial σ K) := MvPolynomial.isNoetherianRing
  have hwf : WellFounded (Prod.Lex (fun I J : Ideal (MvPolynomial σ K) => J < I)
      ((· < ·) : ℕ → ℕ → Prop)) :=
    WellFounded.prod_lex (wellFounded_gt (α := Ideal (MvPolynomial σ K))) wellFounded_lt
  refine loop_spec _ hwf
    (fun s : List (Poly F) × ℕ => GenOk σ s.1 ∧ Ideal.span (dens σ s.1) = Ideal.span (dens σ gens) ∧
      (∀ g ∈ s.1, M (m.leadingCoeff (Poly.den σ g))) ∧ s.2 ≤ s.1.length ∧
      (∀ i j, j < i → i < s.2 → PairOk m s.1 (i, j)) ∧ (∀ g ∈ s.1, Poly.In B g) ∧
      (s.1 = gens ∨ ¬ IsGroebner m (Ideal.span (dens σ gens)) (dens σ gens)))
    (fun s => (monIdeal K (leads m s.1), s.1.length - s.2)) _ ?_ _
    ⟨hg, rfl, hM, Nat.zero_le _, fun i j _ h => absurd h (Nat.not_lt_zero _), hgB,
      .inl rfl⟩
  rintro ⟨G, i⟩ ⟨hok, hspan, hMG, hle, hpairs, hGB, hnew⟩
  simp only at hok hspan hMG hle hpairs hGB hnew
  unfold Computer.extendStep
  simp only
  split
  · rename_i hi
    refine (extendFor_spec_in hO hE hok (hB G hok hGB hnew) hi (List.range i) fun j hj => ?_).bind ?_
    · have := List.mem_range.mp hj; omega
    rintro (_ | r) ho
    · refine ⟨⟨hok, hspan, hMG, hi, fun i' j hj hi' => ?_, hGB, hnew⟩, ?_⟩
      · rcases Nat.lt_succ_iff_lt_or_eq.mp hi' with h | rfl
        · exact hpairs i' j hj h
        · exact ho j (List.mem_range.mpr hj)
      · refine Prod.Lex.right _ ?_
        simp only
        omega
    · obtain ⟨hr, hrne, hrm, hrlc, hrdeg, hrB⟩ := ho
      refine ⟨⟨?_, ?_, ?_, Nat.zero_le _, fun i j _ h => absurd h (Nat.not_lt_zero _), ?_, ?_⟩, ?_⟩
      · intro g hg
        rcases List.mem_append.mp hg with h | h
        · exact hok g h
        · rw [List.mem_singleton.mp h]; exact ⟨hr, hrne⟩
      · simp only
        rw [← hspan, dens_append_singleton]
        exact le_antisymm (Ideal.span_le.mpr (Set.insert_subset hrm Ideal.subset_span))
          (Ideal.span_mono (Set.subset_insert _ _))
      · intro g hg
        rcases List.mem_append.mp hg with h | h
        · exact hMG g h
        · rw [List.mem_singleton.mp h, hrlc]; exact hM1
      · intro g hg
        rcases List.mem_append.mp hg with h | h
        · exact hGB g h
        · rw [List.mem_singleton.mp h]; exact hrB
      · rcases hnew with rfl | hnew
        · refine .inr fun hGr => ?_
          obtain ⟨p, hp, hp0, hd⟩ := hGr.2 _ hrm (by rwa [Ne, Poly.den_eq_zero_iff hr])
          exact hrdeg p hp hp0 hd
        · exact .inr hnew
      · refine Prod.Lex.left _ _ ?_
        simp only
        have : leads m (G ++ [r]) = insert (m.degree (Poly.den σ r)) (leads m G) := by
          ext d
          simp only [leads, List.mem_append, List.mem_singleton, Set.mem_ofPred_eq,
            Set.mem_insert_iff]
          constructor
          · rintro ⟨g, hg | rfl, rfl⟩
            · exact Or.inr ⟨g, hg, rfl⟩
            · exact Or.inl rfl
          · rintro (rfl | ⟨g, hg, rfl⟩)
            · exact ⟨r, Or.inr rfl, rfl⟩
            · exact ⟨g, Or.inl hg, rfl⟩
        rw [this]
        refine monIdeal_lt ?_
        rintro _ ⟨g, hg, rfl⟩
        exact hrdeg _ (mem_dens hg) (hok.den_ne hg)
  · rename_i hi
    refine ⟨hok, ?_, hMG, hGB⟩
    rw [← hspan]
    exact groebner_of_pairs fun i' j hj hi' => hpairs i' j hj (by omega)

theorem buchbergerExtend_spec [Finite σ] (hO : LawfulOrder O m (fun _ => True) E)
    (hE : ∀ p, allowed F p → E p) {gens : List (Poly F)} (hg : GenOk σ gens) (M : K → Prop)
    (hM1 : M 1) (hM : ∀ g ∈ gens, M (m.leadingCoeff (Poly.den σ g))) :
    Spec E (Computer.buchbergerExtend O gens) (fun G => GenOk σ G ∧
      IsGroebner m (Ideal.span (dens σ gens)) (dens σ G) ∧
      ∀ g ∈ G, M (m.leadingCoeff (Poly.den σ g))) :=
  (buchbergerExtend_spec_in hO hE hg (fun _ _ => in_true) (fun _ _ _ _ => gensIn_true) M hM1 hM).imp
    fun _ h => ⟨h.1, h.2.1, h.2.2.1⟩

/-! ## `buchberger_minimize` -/

theorem unwrapLeadingTerm_spec_in (hO : LawfulOrder O m B E) {g : Poly F}
    (hg : Poly.Clean σ g) (hg0 : g ≠ []) (hB : Poly.In B g) :
    Spec E (Computer.unwrapLeadingTerm O g) (fun t => t.Clean σ ∧
      t.mdeg.toF σ = m.degree (Poly.den σ g)) := by
  unfold Computer.unwrapLeadingTerm
  refine (leadingTerm_spec hO hg hB).bind ?_
  rintro (_ | t) h
  · exact absurd h hg0
  · exact ⟨h.2.1, h.2.2.1⟩

theorem unwrapLeadingTerm_spec (hO : LawfulOrder O m (fun _ => True) E) {g : Poly F}
    (hg : Poly.Clean σ g) (hg0 : g ≠ []) :
    Spec E (Computer.unwrapLeadingTerm O g) (fun t => t.Clean σ ∧
      t.mdeg.toF σ = m.degree (Poly.den σ g)) :=
  unwrapLeadingTerm_spec_in hO hg hg0 in_true

theorem minimizeFor_spec_in (hO : LawfulOrder O m B E)
    {gens : List (Poly F)} (hg : GenOk σ gens) (hB : ∀ g ∈ gens, Poly.In B g) (L : List (ℕ × ℕ))
    (hL : ∀ x ∈ L, x ∈ Computer.pairsIter gens.length) :
    Spec E (Computer.minimizeFor O gens L) (fun o => match o with
      | none => ∀ x ∈ L, ∀ (hi : x.1 < gens.length) (hj : x.2 < gens.length),
          ¬ m.degree (Poly.den σ gens[x.2]) ≤ m.degree (Poly.den σ gens[x.1])
      | some i => ∃ (hi : i < gens.length) (j : ℕ) (hj : j < gens.length), j ≠ i ∧
          m.degree (Poly.den σ gens[j]) ≤ m.degree (Poly.den σ gens[i])) := by
  induction L with
  | nil => intro x hx; simp at hx
  | cons x rest ih =>
    obtain ⟨i, j⟩ := x
    obtain ⟨hi, hj, hij⟩ := mem_pairsIter.mp (hL (i, j) (by simp))
    unfold Computer.minimizeFor
    refine (index_spec hj).bind ?_
    rintro gj rfl
    have mi := List.getElem_mem hi
    have mj := List.getElem_mem hj
    refine (unwrapLeadingTerm_spec_in hO (hg _ mj).1 (hg _ mj).2 (hB _ mj)).bind fun ltJ hJ => ?_
    refine (index_spec hi).bind ?_
    rintro gi rfl
    refine (unwrapLeadingTerm_spec_in hO (hg _ mi).1 (hg _ mi).2 (hB _ mi)).bind fun ltI hI => ?_
    have hdiv := Term.divides_iff hJ.1 (t := ltI)
    rw [hJ.2, hI.2] at hdiv
    split
    · rename_i hd
      exact ⟨hi, j, hj, hij.symm, hdiv.mp hd⟩
    · rename_i hd
      refine (ih fun x hx => hL x (by simp [hx])).imp ?_
      rintro (_ | k) h
      · intro x hx
        rcases List.mem_cons.mp hx with rfl | hx
        · intro _ _ hle
          exact hd (hdiv.mpr hle)
        · exact h x hx
      · exact h

theorem minimizeFor_spec (hO : LawfulOrder O m (fun _ => True) E)
    {gens : List (Poly F)} (hg : GenOk σ gens) (L : List (ℕ × ℕ))
    (hL : ∀ x ∈ L, x ∈ Computer.pairsIter gens.length) :
    Spec E (Computer.minimizeFor O gens L) (fun o => match o with
      | none => ∀ x ∈ L, ∀ (hi : x.1 < gens.length) (hj : x.2 < gens.length),
          ¬ m.degree (Poly.den σ gens[x.2]) ≤ m.degree (Poly.den σ gens[x.1])
      | some i => ∃ (hi : i < gens.length) (j : ℕ) (hj : j < gens.length), j ≠ i ∧
          m.degree (Poly.den σ gens[j]) ≤ m.degree (Poly.den σ gens[i])) :=
  minimizeFor_spec_in hO hg (fun _ _ => in_true) L hL

/-- Leading monomials are pairwise incomparable. -/
def LeadsIncomparable (m : MonomialOrder σ) (gens : List (Poly F)) : Prop :=
  gens.Pairwise fun f g => ¬ m.degree (Poly.den σ f) ≤ m.degree (Poly.den σ g) ∧
    ¬ m.degree (Poly.den σ g) ≤ m.degree (Poly.den σ f)

theorem buchbergerMinimize_spec_in (hO : LawfulOrder O m B E)
    {gens : List (Poly F)} (hg : GenOk σ gens) (hB : ∀ g ∈ gens, Poly.In B g) (M : K → Prop)
    (hM : ∀ g ∈ gens, M (m.leadingCoeff (Poly.den σ g))) {I : Ideal (MvPolynomial σ K)}
    (hG : IsGroebner m I (dens σ gens)) :
    Spec E (Computer.buchbergerMinimize O gens) (fun G => GenOk σ G ∧
      IsGroebner m I (dens σ G) ∧ (∀ g ∈ G, M (m.leadingCoeff (Poly.den σ g))) ∧
      LeadsIncomparable m G ∧ ∀ g ∈ G, Poly.In B g) := by
  unfold Computer.buchbergerMinimize
  refine loop_spec (· < ·) wellFounded_lt (fun G : List (Poly F) => GenOk σ G ∧
    IsGroebner m I (dens σ G) ∧ (∀ g ∈ G, M (m.leadingCoeff (Poly.den σ g))) ∧ ∀ g ∈ G, Poly.In B g)
    List.length _ ?_ _ ⟨hg, hG, hM, hB⟩
  rintro G ⟨hok, hGr, hMG, hGB⟩
  unfold Computer.minimizeStep
  refine (minimizeFor_spec_in hO hok hGB _ fun x hx => hx).bind ?_
  rintro (_ | i) h
  · refine ⟨hok, hGr, hMG, ?_, hGB⟩
    unfold LeadsIncomparable
    rw [List.pairwise_iff_getElem]
    intro i j hi hj hij
    exact ⟨h (j, i) (mem_pairsIter.mpr ⟨hj, hi, by omega⟩) hj hi,
      h (i, j) (mem_pairsIter.mpr ⟨hi, hj, by omega⟩) hi hj⟩
  · obtain ⟨hi, j, hj, hji, hle⟩ := h
    have hsub : ∀ g ∈ G.eraseIdx i, g ∈ G := fun g hg => List.mem_of_mem_eraseIdx hg
    refine ⟨⟨fun g hg => hok g (hsub g hg), ⟨?_, ?_⟩, fun g hg => hMG g (hsub g hg),
      fun g hg => hGB g (hsub g hg)⟩, ?_⟩
    · rintro _ ⟨g, hg, rfl⟩
      exact hGr.1 (mem_dens (hsub g hg))
    · intro f hf hf0
      obtain ⟨_, ⟨g, hgm, rfl⟩, hg0, hd⟩ := hGr.2 f hf hf0
      obtain ⟨k, hk, rfl⟩ := List.mem_iff_getElem.mp hgm
      by_cases hki : k = i
      · subst hki
        refine ⟨_, mem_dens (List.mem_eraseIdx_iff_getElem.mpr ⟨j, hj, hji, rfl⟩),
          hok.den_ne (List.getElem_mem hj), hle.trans hd⟩
      · exact ⟨_, mem_dens (List.mem_eraseIdx_iff_getElem.mpr ⟨k, hk, hki, rfl⟩), hg0, hd⟩
    · rw [List.length_eraseIdx_of_lt hi]
      have : 0 < G.length := by omega
      omega

theorem buchbergerMinimize_spec (hO : LawfulOrder O m (fun _ => True) E)
    {gens : List (Poly F)} (hg : GenOk σ gens) (M : K → Prop)
    (hM : ∀ g ∈ gens, M (m.leadingCoeff (Poly.den σ g))) {I : Ideal (MvPolynomial σ K)}
    (hG : IsGroebner m I (dens σ gens)) :
    Spec E (Computer.buchbergerMinimize O gens) (fun G => GenOk σ G ∧
      IsGroebner m I (dens σ G) ∧ (∀ g ∈ G, M (m.leadingCoeff (Poly.den σ g))) ∧
      LeadsIncomparable m G) :=
  (buchbergerMinimize_spec_in hO hg (fun _ _ => in_true) M hM hG).imp fun _ h =>
    ⟨h.1, h.2.1, h.2.2.1, h.2.2.2.1⟩

/-! ## `buchberger_reduce` -/

theorem reduceTerms_spec_in (hO : LawfulOrder O m B E) {gj : Poly F}
    (hg : Poly.Clean σ gj) (hg0 : gj ≠ []) (hB : Poly.In B gj) (ts : List (Term F)) (hts : ∀ t ∈ ts, t.Clean σ) :
    Spec E (Computer.reduceTerms O gj ts) (fun b => b = true ↔
      ∃ t ∈ ts, m.degree (Poly.den σ gj) ≤ t.mdeg.toF σ) := by
  induction ts with
  | nil => simp [Computer.reduceTerms]
  | cons t ts ih =>
    unfold Computer.reduceTerms
    refine (unwrapLeadingTerm_spec_in hO hg hg0 hB).bind fun ltJ hJ => ?_
    have hdiv := Term.divides_iff hJ.1 (t := t)
    rw [hJ.2] at hdiv
    split
    · rename_i hd
      simp only [spec_pure, true_iff]
      exact ⟨t, by simp, hdiv.mp hd⟩
    · rename_i hd
      refine (ih fun t ht => hts t (by simp [ht])).imp fun b hb => ?_
      rw [hb]
      constructor
      · rintro ⟨u, hu, hle⟩; exact ⟨u, by simp [hu], hle⟩
      · rintro ⟨u, hu, hle⟩
        rcases List.mem_cons.mp hu with rfl | hu
        · exact absurd (hdiv.mpr hle) hd
        · exact ⟨u, hu, hle⟩

theorem reduceTerms_spec (hO : LawfulOrder O m (fun _ => True) E) {gj : Poly F}
    (hg : Poly.Clean σ gj) (hg0 : gj ≠ []) (ts : List (Term F)) (hts : ∀ t ∈ ts, t.Clean σ) :
    Spec E (Computer.reduceTerms O gj ts) (fun b => b = true ↔
      ∃ t ∈ ts, m.degree (Poly.den σ gj) ≤ t.mdeg.toF σ) :=
  reduceTerms_spec_in hO hg hg0 in_true ts hts

theorem reduceFor_spec_in (hO : LawfulOrder O m B E)
    {gens : List (Poly F)} (hg : GenOk σ gens) (hB : ∀ g ∈ gens, Poly.In B g) (L : List (ℕ × ℕ))
    (hL : ∀ x ∈ L, x ∈ Computer.pairsIter gens.length) :
    Spec E (Computer.reduceFor O gens L) (fun o => match o with
      | none => ∀ x ∈ L, ∀ (hi : x.1 < gens.length) (hj : x.2 < gens.length),
          ∀ e ∈ (Poly.den σ gens[x.1]).support, ¬ m.degree (Poly.den σ gens[x.2]) ≤ e
      | some i => ∃ (hi : i < gens.length) (j : ℕ) (hj : j < gens.length), j ≠ i ∧
          ∃ e ∈ (Poly.den σ gens[i]).support, m.degree (Poly.den σ gens[j]) ≤ e) := by
  induction L with
  | nil => intro x hx; simp at hx
  | cons x rest ih =>
    obtain ⟨i, j⟩ := x
    obtain ⟨hi, hj, hij⟩ := mem_pairsIter.mp (hL (i, j) (by simp))
    unfold Computer.reduceFor
    refine (index_spec hi).bind ?_
    rintro gi rfl
    refine (index_spec hj).bind ?_
    rintro gj rfl
    have mi := List.getElem_mem hi
    have mj := List.getElem_mem hj
    refine (reduceTerms_spec_in hO (hg _ mj).1 (hg _ mj).2 (hB _ mj) gens[i] (hg _ mi).1.terms).bind
      fun b hb => ?_
    split
    · rename_i hd
      obtain ⟨t, ht, hle⟩ := hb.mp hd
      exact ⟨hi, j, hj, hij.symm, _, (Poly.mem_support_den (hg _ mi).1).mpr ⟨t, ht, rfl⟩, hle⟩
    · rename_i hd
      refine (ih fun x hx => hL x (by simp [hx])).imp ?_
      rintro (_ | k) h
      · intro x hx
        rcases List.mem_cons.mp hx with rfl | hx
        · intro _ _ e he hle
          obtain ⟨t, ht, rfl⟩ := (Poly.mem_support_den (hg _ mi).1).mp he
          exact hd (hb.mpr ⟨t, ht, hle⟩)
        · exact h x hx
      · exact h

theorem reduceFor_spec (hO : LawfulOrder O m (fun _ => True) E)
    {gens : List (Poly F)} (hg : GenOk σ gens) (L : List (ℕ × ℕ))
    (hL : ∀ x ∈ L, x ∈ Computer.pairsIter gens.length) :
    Spec E (Computer.reduceFor O gens L) (fun o => match o with
      | none => ∀ x ∈ L, ∀ (hi : x.1 < gens.length) (hj : x.2 < gens.length),
          ∀ e ∈ (Poly.den σ gens[x.1]).support, ¬ m.degree (Poly.den σ gens[x.2]) ≤ e
      | some i => ∃ (hi : i < gens.length) (j : ℕ) (hj : j < gens.length), j ≠ i ∧
          ∃ e ∈ (Poly.den σ gens[i]).support, m.degree (Poly.den σ gens[j]) ≤ e) :=
  reduceFor_spec_in hO hg (fun _ _ => in_true) L hL

omit [VarIdx σ] in
/-- If no divisor's leading monomial divides that of `f`, the remainder has the same leading term. -/
theorem rem_leading {G : Set (MvPolynomial σ K)} {f r : MvPolynomial σ K} (hf : f ≠ 0)
    (hG : ∀ g ∈ G, g ≠ 0 → ¬ m.degree g ≤ m.degree f)
    (hle : ∀ e ∈ r.support, m.toSyn e ≤ m.toSyn (m.degree f))
    (hb : f - r ∈ Below m G (· ≤ m.toSyn (m.degree f))) :
    m.degree r = m.degree f ∧ m.leadingCoeff r = m.leadingCoeff f := by
  have hb' : f - r ∈ Below m G (· < m.toSyn (m.degree f)) := by
    refine Submodule.span_mono ?_ hb
    rintro p ⟨g, hg, e, hne, hle, rfl⟩
    refine ⟨g, hg, e, hne, lt_of_le_of_ne hle fun heq => hG g hg hne ?_, rfl⟩
    rw [← m.toSyn.injective heq]; exact le_add_self
  have hc : coeff (m.degree f) (f - r) = 0 := Below.coeff_eq_zero (fun a h => h) hb'
  rw [coeff_sub, sub_eq_zero] at hc
  have hdeg : m.degree r = m.degree f := by
    apply m.toSyn.injective
    apply le_antisymm
    · exact degree_le_of_support m hle
    · apply m.le_degree
      rw [mem_support_iff, ← hc]
      exact m.leadingCoeff_ne_zero_iff.mpr hf
  exact ⟨hdeg, by unfold MonomialOrder.leadingCoeff; rw [hdeg, hc]⟩

theorem LeadsIncomparable.perm {G H : List (Poly F)} (h : G.Perm H)
    (hG : LeadsIncomparable m G) : LeadsIncomparable m H :=
  (h.pairwise_iff (fun h => ⟨h.2, h.1⟩)).mp hG

/-- `f` is reduced with respect to the set of leading exponents `D`. -/
def RedWrt (m : MonomialOrder σ) (D : Set (σ →₀ ℕ)) (f : MvPolynomial σ K) : Prop :=
  ∀ d ∈ D, d ≠ m.degree f → ∀ e ∈ f.support, ¬ d ≤ e

theorem buchbergerReduce_spec (hO : LawfulOrder O m B E)
    (hE : ∀ p, allowed F p → E p) {gens : List (Poly F)} (hg : GenOk σ gens)
    (hB : ∀ g ∈ gens, Poly.In B g) (M : K → Prop)
    (hM : ∀ g ∈ gens, M (m.leadingCoeff (Poly.den σ g))) {I : Ideal (MvPolynomial σ K)}
    (hG : IsGroebner m I (dens σ gens)) (hinc : LeadsIncomparable m gens) :
    Spec E (Computer.buchbergerReduce O gens) (fun G => GenOk σ G ∧
      IsGroebner m I (dens σ G) ∧ (∀ g ∈ G, M (m.leadingCoeff (Poly.den σ g))) ∧
      LeadsIncomparable m G ∧ IsInterReduced m (dens σ G) ∧ ∀ g ∈ G, Poly.In B g) := by
  classical
  unfold Computer.buchbergerReduce
  refine loop_spec (· < ·) wellFounded_lt (fun G : List (Poly F) => GenOk σ G ∧
    IsGroebner m I (dens σ G) ∧ (∀ g ∈ G, M (m.leadingCoeff (Poly.den σ g))) ∧
    LeadsIncomparable m G ∧ leads m G = leads m gens ∧ ∀ g ∈ G, Poly.In B g)
    (fun G => G.countP fun g => ¬ RedWrt m (leads m gens) (Poly.den σ g)) _ ?_ _
    ⟨hg, hG, hM, hinc, rfl, hB⟩
  rintro G ⟨hok, hGr, hMG, hinc, hlead, hGB⟩
  unfold Computer.reduceStep
  refine (reduceFor_spec_in hO hok hGB _ fun x hx => hx).bind ?_
  rintro (_ | i) h
  · refine ⟨hok, hGr, hMG, hinc, ?_, hGB⟩
    rintro _ ⟨f, hf, rfl⟩ _ ⟨g, hg, rfl⟩ hne
    obtain ⟨i, hi, rfl⟩ := List.mem_iff_getElem.mp hf
    obtain ⟨j, hj, rfl⟩ := List.mem_iff_getElem.mp hg
    refine h (i, j) (mem_pairsIter.mpr ⟨hi, hj, ?_⟩) hi hj
    rintro rfl; exact hne rfl
  · obtain ⟨hi, j, hj, hji, e, he, hle⟩ := h
    simp only
    refine (index_spec hi).bind ?_
    rintro g rfl
    have mi := List.getElem_mem hi
    have mj := List.getElem_mem hj
    have hsub : ∀ g ∈ G.eraseIdx i, g ∈ G := fun g hg => List.mem_of_mem_eraseIdx hg
    have hperm : (G[i] :: G.eraseIdx i).Perm G := List.getElem_cons_eraseIdx_perm hi
    have hinc' : LeadsIncomparable m (G[i] :: G.eraseIdx i) := hinc.perm hperm.symm
    have hothers := (List.pairwise_cons.mp hinc').1
    have hjo : G[j] ∈ G.eraseIdx i := List.mem_eraseIdx_iff_getElem.mpr ⟨j, hj, hji, rfl⟩
    refine (divide_gens_in hO hE (hO.zero (hGB _ mi) (hok _ mi).1 (hok _ mi).2)
      (fun g h => (hok g (hsub g h)).1) (fun g h => hGB g (hsub g h)) (hok _ mi).1 (hGB _ mi)).bind ?_
    rintro ⟨r, qs⟩ ⟨hr, hred, hspan, hbelow, hrB⟩
    simp only at hr hred hspan hbelow hrB ⊢
    have hlt : m.degree (Poly.den σ r) = m.degree (Poly.den σ G[i]) ∧
        m.leadingCoeff (Poly.den σ r) = m.leadingCoeff (Poly.den σ G[i]) := by
      refine rem_leading (hok.den_ne mi) ?_ (fun e he => (hred e he).1) hbelow
      rintro _ ⟨g, hg, rfl⟩ _
      exact (hothers g hg).2
    have hr0 : Poly.den σ r ≠ 0 := by
      rw [← m.leadingCoeff_ne_zero_iff, hlt.2, m.leadingCoeff_ne_zero_iff]
      exact hok.den_ne mi
    have hrne : r ≠ [] := by rintro rfl; exact hr0 rfl
    have hlead' : leads m (G.eraseIdx i ++ [r]) = leads m G := by
      ext d
      constructor
      · rintro ⟨g, hg, rfl⟩
        rcases List.mem_append.mp hg with h | h
        · exact ⟨g, hsub g h, rfl⟩
        · rw [List.mem_singleton.mp h]; exact ⟨_, mi, hlt.1⟩
      · rintro ⟨g, hg, rfl⟩
        rcases List.mem_cons.mp (hperm.mem_iff.mpr hg) with rfl | h
        · exact ⟨r, by simp, hlt.1.symm⟩
        · exact ⟨g, by simp [h], rfl⟩
    refine ⟨⟨?_, ⟨?_, ?_⟩, ?_, ?_, hlead'.trans hlead, ?_⟩, ?_⟩
    · intro g hg
      rcases List.mem_append.mp hg with h | h
      · exact hok g (hsub g h)
      · rw [List.mem_singleton.mp h]; exact ⟨hr, hrne⟩
    · rintro _ ⟨g, hg, rfl⟩
      rcases List.mem_append.mp hg with h | h
      · exact hGr.1 (mem_dens (hsub g h))
      · rw [List.mem_singleton.mp h]
        have h1 : Poly.den σ G[i] - Poly.den σ r ∈ I := by
          refine (Ideal.span_le.mpr ?_) hspan
          rintro _ ⟨g, hg, rfl⟩
          exact hGr.1 (mem_dens (hsub g hg))
        have := I.sub_mem (hGr.1 (mem_dens mi)) h1
        rwa [sub_sub_cancel] at this
    · intro f hf hf0
      obtain ⟨_, ⟨g, hgm, rfl⟩, hg0, hd⟩ := hGr.2 f hf hf0
      rcases List.mem_cons.mp (hperm.mem_iff.mpr hgm) with rfl | h
      · exact ⟨_, mem_dens (List.mem_append.mpr (Or.inr (by simp))), hr0, by rwa [hlt.1]⟩
      · exact ⟨_, mem_dens (List.mem_append.mpr (Or.inl h)), hg0, hd⟩
    · intro g hg
      rcases List.mem_append.mp hg with h | h
      · exact hMG g (hsub g h)
      · rw [List.mem_singleton.mp h, hlt.2]; exact hMG _ mi
    · refine LeadsIncomparable.perm (List.perm_append_singleton r _).symm ?_
      refine List.pairwise_cons.mpr ⟨?_, (List.pairwise_cons.mp hinc').2⟩
      rw [hlt.1]
      exact hothers
    · intro g hg
      rcases List.mem_append.mp hg with h | h
      · exact hGB g (hsub g h)
      · rw [List.mem_singleton.mp h]; exact hrB
    · have c1 : ¬ RedWrt m (leads m gens) (Poly.den σ G[i]) := by
        intro hR
        refine hR _ (by rw [← hlead]; exact ⟨_, mj, rfl⟩) ?_ e he hle
        intro heq
        exact (hothers _ hjo).1 heq.ge
      have c2 : RedWrt m (leads m gens) (Poly.den σ r) := by
        rintro d hd hne e he
        rw [← hlead, ← hlead'] at hd
        obtain ⟨g, hg, rfl⟩ := hd
        rcases List.mem_append.mp hg with h | h
        · exact (hred e he).2 _ (mem_dens h) (hok.den_ne (hsub g h))
        · rw [List.mem_singleton.mp h] at hne; exact absurd rfl hne
      rw [← hperm.countP_eq, (List.perm_append_singleton r (G.eraseIdx i)).countP_eq,
        List.countP_cons_of_neg (by simpa using c2), List.countP_cons_of_pos (by simpa using c1)]
      omega

/-- `buchberger_algorithm` in a region of exponents that contains the generators and the least common
multiples it meets. -/
theorem buchbergerAlgorithm_spec_in [Finite σ] (hO : LawfulOrder O m B E)
    (hE : ∀ p, allowed F p → E p) {gens : List (Poly F)} (hg : GenOk σ gens)
    (hgB : ∀ g ∈ gens, Poly.In B g)
    (hB : ∀ G, GenOk σ G → (∀ g ∈ G, Poly.In B g) →
      (G = gens ∨ ¬ IsGroebner m (Ideal.span (dens σ gens)) (dens σ gens)) → GensIn m B G)
    (M : K → Prop) (hM1 : M 1) (hM : ∀ g ∈ gens, M (m.leadingCoeff (Poly.den σ g))) :
    Spec E (Computer.buchbergerAlgorithm O gens) (fun G => GenOk σ G ∧
      IsGroebner m (Ideal.span (dens σ gens)) (dens σ G) ∧
      (∀ g ∈ G, M (m.leadingCoeff (Poly.den σ g))) ∧
      LeadsIncomparable m G ∧ IsInterReduced m (dens σ G) ∧ ∀ g ∈ G, Poly.In B g) := by
  unfold Computer.buchbergerAlgorithm
  refine (buchbergerExtend_spec_in hO hE hg hgB hB M hM1 hM).bind fun G₁ h₁ => ?_
  refine (buchbergerMinimize_spec_in hO h₁.1 h₁.2.2.2 M h₁.2.2.1 h₁.2.1).bind fun G₂ h₂ => ?_
  exact buchbergerReduce_spec hO hE h₂.1 h₂.2.2.2.2 M h₂.2.2.1 h₂.2.1 h₂.2.2.2.1

theorem buchbergerAlgorithm_spec [Finite σ] (hO : LawfulOrder O m (fun _ => True) E)
    (hE : ∀ p, allowed F p → E p) {gens : List (Poly F)} (hg : GenOk σ gens) (M : K → Prop)
    (hM1 : M 1) (hM : ∀ g ∈ gens, M (m.leadingCoeff (Poly.den σ g))) :
    Spec E (Computer.buchbergerAlgorithm O gens) (fun G => GenOk σ G ∧
      IsGroebner m (Ideal.span (dens σ gens)) (dens σ G) ∧
      (∀ g ∈ G, M (m.leadingCoeff (Poly.den σ g))) ∧
      LeadsIncomparable m G ∧ IsInterReduced m (dens σ G)) :=
  (buchbergerAlgorithm_spec_in hO hE hg (fun _ _ => in_true) (fun _ _ _ _ => gensIn_true) M hM1 hM).imp
    fun _ h => ⟨h.1, h.2.1, h.2.2.1, h.2.2.2.1, h.2.2.2.2.1⟩

end Verif
