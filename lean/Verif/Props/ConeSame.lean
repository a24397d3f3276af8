import Verif.Props.ConeDual

/-!
# Property C202: which cone is generated, and the first generator, decide the facets

Two lists of generators of the same cone, with first generators on the same facets, give the same
dimension, the same basis of the orthogonal complement and the same normals. In particular generators inside
the cone of the others change nothing, unless they come first.
-/

namespace Verif
open Res LinAlg LawfulRField Matrix

section
variable {K : Type} [Field K] {m : ℕ}

theorem mem_of_orthogonal (A : Submodule K (Fin m → K)) (b : Fin m → K)
    (h : ∀ z, (∀ s ∈ A, s ⬝ᵥ z = 0) → b ⬝ᵥ z = 0) : b ∈ A := by
  by_contra hb
  obtain ⟨f, hf, hA⟩ := Submodule.exists_le_ker_of_notMem hb
  obtain ⟨z, rfl⟩ := (dotProductEquiv K (Fin m)).surjective f
  refine hf ?_
  have := h z fun s hs => by
    have := hA hs
    rw [LinearMap.mem_ker] at this
    rw [dotProduct_comm]
    exact this
  rw [dotProduct_comm] at this
  exact this

theorem positions_iff {n : ℕ} {v : Fin n → Fin m → K} {l : List (Fin n)} (hl : l.Nodup) :
    LinearIndependent K (fun i : Fin l.length => v (l.get i)) ↔ LinearIndepOn K v {i | i ∈ l} :=
  linearIndependent_equiv (hl.getEquiv l) (f := fun i : {i // i ∈ l} => v i)

omit [Field K] in
theorem image_positions {n : ℕ} (v : Fin n → Fin m → K) (l : List (Fin n)) :
    v '' {i | i ∈ l} = Set.range fun i : Fin l.length => v (l.get i) := by
  ext u
  constructor
  · rintro ⟨i, hi, rfl⟩
    obtain ⟨q, rfl⟩ := List.get_of_mem hi
    exact ⟨q, rfl⟩
  · rintro ⟨q, rfl⟩
    exact ⟨_, List.get_mem l q, rfl⟩

theorem span_orthogonal {S : Set (Fin m → K)} {z : Fin m → K} (h : ∀ s ∈ S, s ⬝ᵥ z = 0) :
    ∀ s ∈ Submodule.span K S, s ⬝ᵥ z = 0 := by
  intro s hs
  induction hs using Submodule.span_induction with
  | mem s hs => exact h s hs
  | zero => exact zero_dotProduct _
  | add s t _ _ hs ht => rw [add_dotProduct, hs, ht, add_zero]
  | smul a s _ hs => rw [smul_dotProduct, hs, smul_zero]

/-- The entries before position `c`. -/
def front (c : Fin m) : (Fin m → K) →ₗ[K] (Fin m → K) where
  toFun u j := if j < c then u j else 0
  map_add' u u' := by ext j; by_cases h : j < c <;> simp [h]
  map_smul' a u := by ext j; by_cases h : j < c <;> simp [h]

theorem front_dot (c : Fin m) (u z : Fin m → K) : front c u ⬝ᵥ z = u ⬝ᵥ front c z := by
  simp only [dotProduct, front, LinearMap.coe_mk, AddHom.coe_mk]
  refine Finset.sum_congr rfl fun j _ => ?_
  by_cases h : j < c <;> simp [h]

/-- A normal to a whole space is recorded for some independent vectors of every list that spans it. -/
theorem IsNormal.respan {n n' : ℕ} {v : Fin n → Fin m → K} {v' : Fin n' → Fin m → K}
    (hspan : Submodule.span K (Set.range v) = Submodule.span K (Set.range v')) {l : List (Fin n)}
    (hlen : l.length + 1 = Module.finrank K (Submodule.span K (Set.range v))) {y : Fin m → K}
    (hy : IsNormal (v '' {i | i ∈ l}) y) (hall : ∀ i, v i ⬝ᵥ y = 0) :
    ∃ l' : List (Fin n'), l'.Pairwise (· < ·) ∧ l'.length = l.length ∧
      LinearIndependent K (fun i : Fin l'.length => v' (l'.get i)) ∧ IsNormal (v' '' {i | i ∈ l'}) y := by
  classical
  obtain ⟨ho, c, hc1, hc0, hmin⟩ := hy
  have hall' : ∀ i, v' i ⬝ᵥ y = 0 := fun i =>
    span_orthogonal (S := Set.range v) (by rintro _ ⟨i, rfl⟩; exact hall i) _
      (hspan ▸ Submodule.subset_span ⟨i, rfl⟩)
  -- the front parts of the vectors of `l` span those of all
  have hfront : ∀ z : Fin m → K, (∀ j, c ≤ j → z j = 0) ↔ front c z = z := by
    intro z
    constructor
    · intro h
      ext j
      by_cases hj : j < c
      · simp [front, hj]
      · simp [front, hj, h j (not_lt.mp hj)]
    · intro h j hj
      rw [← h]
      simp [front, not_lt.mpr hj]
  have hmin' : ∀ z, (∀ s ∈ v '' {i | i ∈ l}, s ⬝ᵥ front c z = 0) → front c z = 0 := by
    intro z hz
    by_contra hne
    obtain ⟨j, hj, hj0⟩ := hmin _ hz hne
    exact hj0 (by simp [front, not_lt.mpr hj])
  have hle : ∀ u, front c u ∈ (Submodule.span K (v '' {i | i ∈ l})).map (front c) := by
    intro u
    refine mem_of_orthogonal _ _ fun z hz => ?_
    rw [front_dot, hmin' z fun s hs => ?_, dotProduct_zero]
    rw [← front_dot]
    exact hz _ (Submodule.mem_map_of_mem (Submodule.subset_span hs))
  obtain ⟨l₁, hpw₁, -, hli₁, hspan₁, hlen₁⟩ := exists_positions (fun i => front c (v' i)) Set.univ
  have hl₁ : l₁.length ≤ l.length := by
    rw [hlen₁]
    have h1 : Submodule.span K ((fun i => front c (v' i)) '' Set.univ) ≤
        (Submodule.span K (v '' {i | i ∈ l})).map (front c) := by
      rw [Submodule.span_le]
      rintro _ ⟨i, -, rfl⟩
      exact hle _
    refine (Submodule.finrank_mono h1).trans ((Submodule.finrank_map_le _ _).trans ?_)
    rw [image_positions]
    exact (finrank_range_le_card _).trans (by simp)
  have hli₂ : LinearIndependent K (fun i : Fin l₁.length => v' (l₁.get i)) := LinearIndependent.of_comp (front c) hli₁
  have hnd₁ : l₁.Nodup := hpw₁.imp ne_of_lt
  rw [positions_iff hnd₁] at hli₂
  obtain ⟨b, -, hb₁, hb₂, hb₃⟩ := exists_linearIndepOn_extension hli₂ (Set.subset_univ _)
  have hcard : b.toFinset.card = l.length + 1 := by
    rw [hlen, hspan, Set.toFinset_card]
    have h1 : Submodule.span K (Set.range v') = Submodule.span K (Set.range fun i : b => v' i) := by
      rw [Set.image_univ] at hb₂
      refine le_antisymm (Submodule.span_le.mpr ?_) (Submodule.span_mono ?_)
      · rw [← Set.image_eq_range]
        exact hb₂
      · rintro _ ⟨i, rfl⟩
        exact ⟨_, rfl⟩
    rw [h1]
    exact (finrank_span_eq_card hb₃).symm
  obtain ⟨s, hs₁, hs₂, hs₃⟩ := Finset.exists_subsuperset_card_eq (s := l₁.toFinset) (t := b.toFinset)
    (n := l.length) (fun i hi => by
      rw [Set.mem_toFinset]
      exact hb₁ (List.mem_toFinset.mp hi))
    (by rw [List.toFinset_card_of_nodup hnd₁]; exact hl₁) (by omega)
  refine ⟨s.sort (· ≤ ·), Finset.sortedLT_sort s |>.pairwise, (Finset.length_sort _).trans hs₃, ?_, ?_, c, hc1, hc0,
    fun z hz hne => ?_⟩
  · rw [positions_iff (Finset.sort_nodup s (· ≤ ·))]
    refine hb₃.mono fun i hi => ?_
    exact Set.mem_toFinset.mp (hs₂ ((Finset.mem_sort _).mp hi))
  · rintro _ ⟨i, -, rfl⟩
    exact hall' i
  · by_contra hcon
    push Not at hcon
    have hz' := (hfront z).mp hcon
    refine hne ?_
    rw [← hz']
    refine hmin' z ?_
    -- `z` is orthogonal to the front parts of all vectors
    have h2 : ∀ t ∈ Submodule.span K ((fun i => front c (v' i)) '' {i | i ∈ l₁}), t ⬝ᵥ z = 0 := by
      refine span_orthogonal ?_
      rintro _ ⟨i, hi, rfl⟩
      rw [front_dot, hz']
      exact hz _ ⟨i, (Finset.mem_sort _).mpr (hs₁ (List.mem_toFinset.mpr hi)), rfl⟩
    rw [hspan₁] at h2
    rintro _ ⟨i, -, rfl⟩
    rw [hz']
    have h3 : ∀ s ∈ Set.range v', s ⬝ᵥ z = 0 := by
      rintro _ ⟨k, rfl⟩
      rw [← hz', ← front_dot]
      exact h2 _ (Submodule.subset_span ⟨k, trivial, rfl⟩)
    exact span_orthogonal h3 _ (hspan ▸ Submodule.subset_span ⟨i, rfl⟩)

variable [LinearOrder K] [IsStrictOrderedRing K]

/-- The first generators lie on the same supporting hyperplanes. -/
def SameFirst {n n' : ℕ} (v : Fin n → Fin m → K) (v' : Fin n' → Fin m → K) : Prop :=
  ∀ (h : 0 < n) (h' : 0 < n') (x : Fin m → K), (∀ i, 0 ≤ v i ⬝ᵥ x) → (v ⟨0, h⟩ ⬝ᵥ x = 0 ↔ v' ⟨0, h'⟩ ⬝ᵥ x = 0)

omit [IsStrictOrderedRing K] in
theorem Conic.mem_span {n : ℕ} {v : Fin n → Fin m → K} {b : Fin m → K} (h : Conic v b) :
    b ∈ Submodule.span K (Set.range v) := by
  obtain ⟨a, -, rfl⟩ := h
  exact Submodule.sum_mem _ fun i _ => Submodule.smul_mem _ _ (Submodule.subset_span ⟨i, rfl⟩)

omit [IsStrictOrderedRing K] in
theorem Conic.span_le {n n' : ℕ} {v : Fin n → Fin m → K} {v' : Fin n' → Fin m → K} (h : ∀ i, Conic v' (v i)) :
    Submodule.span K (Set.range v) ≤ Submodule.span K (Set.range v') := by
  rw [Submodule.span_le]
  rintro _ ⟨i, rfl⟩
  exact (h i).mem_span

/-- A vector of the cone on a supporting hyperplane is a combination of generators on it. -/
theorem Conic.mem_tight {n : ℕ} {v : Fin n → Fin m → K} {b x : Fin m → K} (h : Conic v b)
    (hx : ∀ i, 0 ≤ v i ⬝ᵥ x) (hb : b ⬝ᵥ x = 0) : b ∈ tight v x := by
  obtain ⟨a, ha, rfl⟩ := h
  rw [sum_dotProduct] at hb
  have h0 := (Finset.sum_eq_zero_iff_of_nonneg fun i _ => by
    rw [smul_dotProduct, smul_eq_mul]; exact mul_nonneg (ha i) (hx i)).mp hb
  refine Submodule.sum_mem _ fun i hi => ?_
  have := h0 i hi
  rw [smul_dotProduct, smul_eq_mul, mul_eq_zero] at this
  rcases this with h | h
  · rw [h, zero_smul]
    exact Submodule.zero_mem _
  · exact Submodule.smul_mem _ _ (Submodule.subset_span ⟨i, h, rfl⟩)

theorem FacetNormal.same_cone {n n' : ℕ} {v : Fin n → Fin m → K} {v' : Fin n' → Fin m → K}
    (h : ∀ i, Conic v' (v i)) (h' : ∀ i, Conic v (v' i)) (hn' : 0 < n') (hfirst : SameFirst v v')
    {l : List (Fin n)} (hlen : l.length + 1 = Module.finrank K (Submodule.span K (Set.range v)))
    {x : Fin m → K} (hf : FacetNormal v l x) :
    ∃ l' : List (Fin n'), l'.Pairwise (· < ·) ∧ l'.length = l.length ∧ FacetNormal v' l' x := by
  obtain ⟨hli, hpos, hn, y, hy, hxy⟩ := hf
  have hspan := le_antisymm (Conic.span_le h) (Conic.span_le h')
  have hpos' : ∀ i, 0 ≤ v' i ⬝ᵥ x := fun i => (h' i).nonneg hpos
  have hxy' : x = y ∧ 0 ≤ v' ⟨0, hn'⟩ ⬝ᵥ y ∨ x = -y ∧ v' ⟨0, hn'⟩ ⬝ᵥ y < 0 := by
    rcases hxy with ⟨rfl, h1⟩ | ⟨rfl, h1⟩
    · exact Or.inl ⟨rfl, hpos' _⟩
    · refine Or.inr ⟨rfl, ?_⟩
      have h2 := hpos' ⟨0, hn'⟩
      have h3 := (hfirst hn hn' (-y) hpos).not.mp (by rw [dotProduct_neg, neg_eq_zero]; exact h1.ne)
      have := lt_of_le_of_ne h2 (Ne.symm h3)
      rw [dotProduct_neg] at this
      linarith
  suffices H : ∃ l' : List (Fin n'), l'.Pairwise (· < ·) ∧ l'.length = l.length ∧
      LinearIndependent K (fun i : Fin l'.length => v' (l'.get i)) ∧ IsNormal (v' '' {i | i ∈ l'}) y by
    obtain ⟨l', h1, h2, h3, h4⟩ := H
    exact ⟨l', h1, h2, h3, hpos', hn', y, h4, hxy'⟩
  have hxy0 : ∀ u : Fin m → K, u ⬝ᵥ x = 0 ↔ u ⬝ᵥ y = 0 := by
    intro u
    rcases hxy with ⟨rfl, -⟩ | ⟨rfl, -⟩
    · rfl
    · rw [dotProduct_neg, neg_eq_zero]
  by_cases hall : ∀ i, v i ⬝ᵥ y = 0
  · exact IsNormal.respan hspan hlen hy hall
  · push Not at hall
    obtain ⟨i₀, hi₀⟩ := hall
    have hle : Submodule.span K (v '' {i | i ∈ l}) ≤ tight v' x := by
      rw [Submodule.span_le]
      rintro _ ⟨i, hi, rfl⟩
      exact (h i).mem_tight hpos' ((hxy0 _).mpr (hy.1 _ ⟨i, hi, rfl⟩))
    have hrank : Module.finrank K (Submodule.span K (v '' {i | i ∈ l})) = l.length := by
      rw [image_positions, finrank_span_eq_card hli, Fintype.card_fin]
    have hlt : tight v' x < Submodule.span K (Set.range v') := by
      refine lt_of_le_of_ne (Submodule.span_mono (Set.image_subset_range _ _)) fun e => ?_
      have : v i₀ ∈ tight v' x := by
        rw [e, ← hspan]
        exact Submodule.subset_span ⟨i₀, rfl⟩
      exact hi₀ ((hxy0 _).mp (tight_orthogonal v' x this))
    have h1 := Submodule.finrank_lt_finrank_of_lt hlt
    rw [← hspan, ← hlen] at h1
    have h2 := Submodule.finrank_mono hle
    rw [hrank] at h2
    have heq : Submodule.span K (v '' {i | i ∈ l}) = tight v' x :=
      Submodule.eq_of_le_of_finrank_eq hle (by omega)
    obtain ⟨l', k1, k2, k3, k4, k5⟩ := exists_positions v' {i | v' i ⬝ᵥ x = 0}
    refine ⟨l', k1, ?_, k3, hy.congr fun z => ?_⟩
    · rw [k5]
      change Module.finrank K (tight v' x) = _
      omega
    · have e : Submodule.span K (v '' {i | i ∈ l}) = Submodule.span K (v' '' {i | i ∈ l'}) := by
        rw [heq, k4]; rfl
      constructor
      · exact fun H s hs => span_orthogonal H s (e ▸ Submodule.subset_span hs)
      · exact fun H s hs => span_orthogonal H s (e ▸ Submodule.subset_span hs)

end

section
variable {F : Type} [RField F] [EpsilonEquality F] [StabilityCmp F] {K : Type} [Field K]
variable [LawfulRField F K] [LawfulPivot F K]
variable [LinearOrder K] [IsStrictOrderedRing K] [FieldOrd F] [LawfulOrd F K] {m : ℕ}

/-- **C202** Two lists of generators of the same cone, whose first generators lie on the same supporting
hyperplanes, give the same dimension, the same basis of the orthogonal complement in the same order, and the
same normals of facets. -/
theorem C202_same_cone {gs gs' : List (Mat F)} {v : Fin gs.length → Fin m → K} {v' : Fin gs'.length → Fin m → K}
    (hg : Generators gs v) (hg' : Generators gs' v') (h : ∀ b, Conic v b ↔ Conic v' b) (hfirst : SameFirst v v')
    {c c' : Cone F} (hc : Cone.new gs = .ok c) (hc' : Cone.new gs' = .ok c') :
    c.dim = c'.dim ∧
    (c.orthCompBasis.length = c'.orthCompBasis.length ∧
      ∀ i (hi : i < c.orthCompBasis.length) (hi' : i < c'.orthCompBasis.length), ∃ x : Fin m → K,
        c.orthCompBasis[i].RepresentsVec x ∧ c'.orthCompBasis[i].RepresentsVec x) ∧
    ∀ x : Fin m → K, (∃ f ∈ c.facets, f.normal.RepresentsVec x) ↔
      ∃ f ∈ c'.facets, f.normal.RepresentsVec x := by
  have hn := length_pos_of_new hc
  have hn' := length_pos_of_new hc'
  have h1 : ∀ i, Conic v' (v i) := fun i => (h _).mp (.gen v i)
  have h2 : ∀ i, Conic v (v' i) := fun i => (h _).mpr (.gen v' i)
  have hspan := le_antisymm (Conic.span_le h1) (Conic.span_le h2)
  obtain ⟨-, -, hd, -⟩ := C71_cone gs v hg.repr hg.small hg.small' c hc
  obtain ⟨-, -, hd', -⟩ := C71_cone gs' v' hg'.repr hg'.small hg'.small' c' hc'
  have hdim : c.dim = c'.dim := by rw [hd, hd', hspan]
  have hfirst' : SameFirst v' v := fun k k' x hx =>
    (hfirst k' k x fun i => (h1 i).nonneg hx).symm
  refine ⟨hdim, ?_, fun x => ?_⟩
  · obtain ⟨-, -, -, A, f, M, e1, e2, e3, -, e5⟩ := C126_fields gs c hc
    obtain ⟨-, -, -, A', f', M', e1', e2', e3', -, e5'⟩ := C126_fields gs' c' hc'
    exact C166_kernel A A' (Matrix.of v) (Matrix.of v') (hg.rows hn e1) (hg'.rows hn' e1') hg.small hg'.small hspan
      (bind_eq_ok.mpr ⟨f, e2, e3⟩) (bind_eq_ok.mpr ⟨f', e2', e3'⟩) e5 e5'
  · rw [hg.recorded hc, hg'.recorded hc']
    constructor
    · rintro ⟨l, k1, k2, k3⟩
      obtain ⟨l', j1, j2, j3⟩ := k3.same_cone h1 h2 hn' hfirst (by rw [k2, hd])
      exact ⟨l', j1, by omega, j3⟩
    · rintro ⟨l, k1, k2, k3⟩
      obtain ⟨l', j1, j2, j3⟩ := k3.same_cone h2 h1 hn hfirst' (by rw [k2, hd'])
      exact ⟨l', j1, by omega, j3⟩

/-- **C202** Generators that lie in the cone of the preceding ones change neither the dimension nor the basis
of the orthogonal complement nor the normals. -/
theorem C202_redundant {gs hs : List (Mat F)} {v : Fin gs.length → Fin m → K}
    {v' : Fin (gs ++ hs).length → Fin m → K} (hg : Generators gs v) (hg' : Generators (gs ++ hs) v')
    (h : ∀ i, Conic v (v' i)) {c c' : Cone F} (hc : Cone.new gs = .ok c) (hc' : Cone.new (gs ++ hs) = .ok c') :
    c.dim = c'.dim ∧
    (c.orthCompBasis.length = c'.orthCompBasis.length ∧
      ∀ i (hi : i < c.orthCompBasis.length) (hi' : i < c'.orthCompBasis.length), ∃ x : Fin m → K,
        c.orthCompBasis[i].RepresentsVec x ∧ c'.orthCompBasis[i].RepresentsVec x) ∧
    ∀ x : Fin m → K, (∃ f ∈ c.facets, f.normal.RepresentsVec x) ↔
      ∃ f ∈ c'.facets, f.normal.RepresentsVec x := by
  have hsame : ∀ i : Fin gs.length, v i = v' (i.castLE (by simp)) := by
    intro i
    have h1 := hg'.repr (i.castLE (by simp))
    have : (gs ++ hs).get (i.castLE (by simp)) = gs.get i := by simp
    rw [this] at h1
    exact vec_unique (hg.repr i) h1
  have trans : ∀ {n n' : ℕ} {u : Fin n → Fin m → K} {u' : Fin n' → Fin m → K}, (∀ i, Conic u' (u i)) →
      ∀ b, Conic u b → Conic u' b := by
    intro n n' u u' hu b hb
    refine farkas u' b fun x hx => ?_
    exact hb.nonneg fun i => (hu i).nonneg hx
  refine C202_same_cone hg hg' (fun b => ⟨trans (fun i => ?_) b, trans h b⟩) ?_ hc hc'
  · rw [hsame]
    exact .gen v' _
  · intro k k' x _
    rw [hsame ⟨0, k⟩]
    rfl

end

section examples
attribute [local instance] Rational.lawful

/-- C202 needs the condition on the first generator: `(1,-1)` lies inside the cone of `(1,0)` and `(0,-1)`,
but put in front of these it changes the facets. -/
theorem C202_first : letI := Rational.field .debug
    letI := Rational.stability .debug
    letI := Rational.fieldOrd .debug
    (fun c => c.facets.map Face.normal) <$> Cone.new [ratMat 2 1 [1, 0], ratMat 2 1 [0, -1]] =
      .ok [ratMat 2 1 [1, 0]] ∧
    (fun c => c.facets.map Face.normal) <$>
        Cone.new [ratMat 2 1 [1, -1], ratMat 2 1 [1, 0], ratMat 2 1 [0, -1]] =
      .ok [ratMat 2 1 [0, -1], ratMat 2 1 [1, 0]] := by
  refine ⟨?_, ?_⟩ <;> decide +kernel

/-- A redundant generator as in `C202_redundant`, for a plane in space. The facets of the second run contain one
more, with a normal that was recorded before. -/
example : letI := Rational.field .debug
    letI := Rational.stability .debug
    letI := Rational.fieldOrd .debug
    (fun c => (c.dim, c.orthCompBasis, c.facets.map Face.normal)) <$>
        Cone.new [ratMat 3 1 [1, 1, 0], ratMat 3 1 [0, 0, 1]] =
      .ok (2, [ratMat 3 1 [-1, 1, 0]], [ratMat 3 1 [-1, 1, 0], ratMat 3 1 [1, 0, 0]]) ∧
    (fun c => (c.dim, c.orthCompBasis, c.facets.map Face.normal)) <$>
        Cone.new [ratMat 3 1 [1, 1, 0], ratMat 3 1 [0, 0, 1], ratMat 3 1 [2, 2, 1]] =
      .ok (2, [ratMat 3 1 [-1, 1, 0]], [ratMat 3 1 [-1, 1, 0], ratMat 3 1 [1, 0, 0], ratMat 3 1 [-1, 1, 0]]) := by
  refine ⟨?_, ?_⟩ <;> decide +kernel

example (i : Fin 3) : Conic (![![1, 1, 0], ![0, 0, 1]] : Fin 2 → Fin 3 → ℚ)
    ((![![1, 1, 0], ![0, 0, 1], ![2, 2, 1]] : Fin 3 → Fin 3 → ℚ) i) := by
  fin_cases i
  · exact ⟨![1, 0], fun i => by fin_cases i <;> simp, by ext j; fin_cases j <;> simp [Fin.sum_univ_two]⟩
  · exact ⟨![0, 1], fun i => by fin_cases i <;> simp, by ext j; fin_cases j <;> simp [Fin.sum_univ_two]⟩
  · exact ⟨![2, 1], fun i => by fin_cases i <;> simp, by ext j; fin_cases j <;> simp [Fin.sum_univ_two]⟩

end examples
end Verif
