import Verif.Props.ConeSmall

/-!
# Property C180: the normals of the facets generate the dual cone

For a full-dimensional cone, exactly when the condition of C115 on the first generator holds. Then
`Cone::new` on the normals gives the dual cone, and doing so twice gives the cone back.
-/

namespace Verif
open Res LinAlg LawfulRField Matrix

section
variable {K : Type} [Field K] [LinearOrder K] [IsStrictOrderedRing K] {m : ℕ}

/-- `b` is a nonnegative combination of the `v i`. -/
def Conic {n : ℕ} (v : Fin n → Fin m → K) (b : Fin m → K) : Prop :=
  ∃ a : Fin n → K, (∀ i, 0 ≤ a i) ∧ b = ∑ i, a i • v i

/-- The condition of C115: every supporting hyperplane spanned by generators that contains the first
generator has an inner normal whose last nonzero entry is positive. -/
def FirstOk {n : ℕ} (v : Fin n → Fin m → K) : Prop :=
  ∀ (h0 : 0 < n) (x : Fin m → K), (∀ i, 0 ≤ v i ⬝ᵥ x) →
    Module.finrank K (Submodule.span K (v '' {i | v i ⬝ᵥ x = 0})) + 1 = m → v ⟨0, h0⟩ ⬝ᵥ x = 0 →
    ∃ j, 0 < x j ∧ ∀ j', j < j' → x j' = 0

theorem Conic.nonneg {n : ℕ} {v : Fin n → Fin m → K} {b y : Fin m → K} (hb : Conic v b)
    (hy : ∀ i, 0 ≤ v i ⬝ᵥ y) : 0 ≤ b ⬝ᵥ y := by
  obtain ⟨a, ha, rfl⟩ := hb
  rw [sum_dotProduct]
  exact Finset.sum_nonneg fun i _ => by
    rw [smul_dotProduct, smul_eq_mul]; exact mul_nonneg (ha i) (hy i)

theorem Conic.gen {n : ℕ} (v : Fin n → Fin m → K) (i : Fin n) : Conic v (v i) := by
  classical
  exact ⟨fun j => if j = i then 1 else 0, fun j => by dsimp only; split <;> simp, by simp⟩

/-- A cone is cut out by the `w i` if and only if its dual is generated by them. -/
theorem conic_dual_iff {n k : ℕ} (v : Fin n → Fin m → K) (w : Fin k → Fin m → K) :
    (∀ b, Conic v b ↔ ∀ i, 0 ≤ w i ⬝ᵥ b) ↔ ∀ y, Conic w y ↔ ∀ i, 0 ≤ v i ⬝ᵥ y := by
  have key : ∀ {n k : ℕ} (v : Fin n → Fin m → K) (w : Fin k → Fin m → K),
      (∀ b, Conic v b ↔ ∀ i, 0 ≤ w i ⬝ᵥ b) → ∀ y, Conic w y ↔ ∀ i, 0 ≤ v i ⬝ᵥ y := by
    intro n k v w h y
    constructor
    · intro hy i
      rw [dotProduct_comm]
      exact hy.nonneg ((h _).mp (.gen v i))
    · intro hy
      refine farkas w y fun x hx => ?_
      rw [dotProduct_comm]
      exact ((h x).mpr hx).nonneg hy
  exact ⟨key v w, key w v⟩

end

section
variable {F : Type} [RField F] [EpsilonEquality F] [StabilityCmp F] {K : Type} [Field K]
variable [LawfulRField F K] [LawfulPivot F K]
variable [LinearOrder K] [IsStrictOrderedRing K] [FieldOrd F] [LawfulOrd F K] {m : ℕ}

omit [LawfulPivot F K] [LawfulOrd F K] [EpsilonEquality F] [StabilityCmp F] [FieldOrd F]
  [IsStrictOrderedRing K] in
theorem inside_iff {c : Cone F} {w : Fin (c.facets.map Face.normal).length → Fin m → K}
    (hw : ∀ i, ((c.facets.map Face.normal).get i).RepresentsVec (w i)) (b : Fin m → K) :
    (∀ f ∈ c.facets, ∀ x : Fin m → K, f.normal.RepresentsVec x → 0 ≤ b ⬝ᵥ x) ↔ ∀ i, 0 ≤ w i ⬝ᵥ b := by
  constructor
  · intro h i
    obtain ⟨f, hf, he⟩ := List.mem_map.mp (List.get_mem (c.facets.map Face.normal) i)
    rw [dotProduct_comm]
    exact h f hf _ (he ▸ hw i)
  · intro h f hf x hx
    obtain ⟨i, hi⟩ := List.get_of_mem (List.mem_map_of_mem (f := Face.normal) hf)
    have := hw i
    rw [hi] at this
    rw [vec_unique hx this, dotProduct_comm]
    exact h i

theorem length_pos_of_new {gs : List (Mat F)} {c : Cone F} (hc : Cone.new gs = .ok c) : 0 < gs.length := by
  rcases gs with _ | ⟨g, gs⟩
  · exact nomatch hc
  · simp

/-- **C180** For a full-dimensional cone, the nonnegative combinations of the recorded normals are the dual
cone (the vectors with nonnegative products with all generators) if and only if the condition of C115 on
the first generator holds. -/
theorem C180_dual {gs : List (Mat F)} {v : Fin gs.length → Fin m → K} (hg : Generators gs v) {c : Cone F}
    (hc : Cone.new gs = .ok c) (hm : c.dim = m)
    {w : Fin (c.facets.map Face.normal).length → Fin m → K}
    (hw : ∀ i, ((c.facets.map Face.normal).get i).RepresentsVec (w i)) :
    (∀ y : Fin m → K, Conic w y ↔ ∀ i, 0 ≤ v i ⬝ᵥ y) ↔ FirstOk v := by
  have h0 := length_pos_of_new hc
  rw [← conic_dual_iff]
  refine Iff.trans ?_ ((C115_halfspaces gs v hg.repr hg.small hg.small' h0 c hc hm).trans
    ⟨fun h _ => h, fun h => h h0⟩)
  exact forall_congr' fun b => by rw [inside_iff hw]; rfl

/-- **C180** `Cone::new` on the normals of the facets gives a cone whose generators are the dual cone of
the first, and whose recorded normals generate the first cone again, provided both cones are full-dimensional
and satisfy the condition of C115. -/
theorem C180_bidual {gs : List (Mat F)} {v : Fin gs.length → Fin m → K} (hg : Generators gs v) {c c' : Cone F}
    (hc : Cone.new gs = .ok c) (hm : c.dim = m) (hok : FirstOk v)
    {w : Fin (c.facets.map Face.normal).length → Fin m → K}
    (hw : Generators (c.facets.map Face.normal) w)
    (hc' : Cone.new (c.facets.map Face.normal) = .ok c') (hm' : c'.dim = m) (hok' : FirstOk w)
    {w' : Fin (c'.facets.map Face.normal).length → Fin m → K}
    (hw' : ∀ i, ((c'.facets.map Face.normal).get i).RepresentsVec (w' i)) (b : Fin m → K) :
    Conic w' b ↔ Conic v b := by
  have h1 := (C180_dual hg hc hm hw.repr).mpr hok
  have h2 := (C180_dual hw hc' hm' hw').mpr hok'
  rw [h2, (conic_dual_iff v w).mpr h1]

/-- **C180** The cone contains a line if and only if the recorded normals do not span the space: the cone
of the normals is full-dimensional exactly when the first cone is pointed. -/
theorem C180_pointed {gs : List (Mat F)} {v : Fin gs.length → Fin m → K} (hg : Generators gs v) {c c' : Cone F}
    (hc : Cone.new gs = .ok c) (hm : c.dim = m) (hok : FirstOk v)
    {w : Fin (c.facets.map Face.normal).length → Fin m → K}
    (hw : Generators (c.facets.map Face.normal) w)
    (hc' : Cone.new (c.facets.map Face.normal) = .ok c') :
    c'.dim = m ↔ ∀ b : Fin m → K, Conic v b → Conic v (-b) → b = 0 := by
  have h1 := (conic_dual_iff v w).mpr ((C180_dual hg hc hm hw.repr).mpr hok)
  obtain ⟨-, -, hdim, -, wo, -, hli, hwo⟩ := C71_cone _ w hw.repr hw.small hw.small' c' hc'
  have hzero : (∀ b : Fin m → K, Conic v b → Conic v (-b) → b = 0) ↔ ∀ b, (∀ i, w i ⬝ᵥ b = 0) → b = 0 := by
    refine forall_congr' fun b => ?_
    rw [h1, h1]
    constructor
    · intro h hz
      exact h (fun i => (hz i).ge) fun i => by rw [dotProduct_neg, hz i, neg_zero]
    · intro h hp hn
      refine h fun i => le_antisymm ?_ (hp i)
      have := hn i
      rw [dotProduct_neg] at this
      linarith
  rw [hzero, hdim]
  have hker : ∀ b : Fin m → K, (∀ i, w i ⬝ᵥ b = 0) ↔ b ∈ LinearMap.ker (Matrix.of w).mulVecLin := by
    intro b
    rw [LinearMap.mem_ker, Matrix.mulVecLin_apply, funext_iff]
    exact Iff.rfl
  have hrk : (Matrix.of w).rank = Module.finrank K (Submodule.span K (Set.range w)) := by
    rw [Matrix.rank_eq_finrank_span_row]; rfl
  have hrn := LinearMap.finrank_range_add_finrank_ker (Matrix.of w).mulVecLin
  rw [Module.finrank_fin_fun] at hrn
  change (Matrix.of w).rank + _ = m at hrn
  rw [hrk] at hrn
  constructor
  · intro h b hb
    have h0 : Module.finrank K (LinearMap.ker (Matrix.of w).mulVecLin) = 0 := by omega
    rw [Submodule.finrank_eq_zero] at h0
    have := (hker b).mp hb
    rw [h0] at this
    simpa using this
  · intro h
    have : LinearMap.ker (Matrix.of w).mulVecLin = ⊥ := by
      rw [eq_bot_iff]
      intro b hb
      simpa using h b ((hker b).mpr hb)
    rw [this, finrank_bot] at hrn
    omega

end

section examples
attribute [local instance] Rational.lawful

/-- The generators `(1,1), (1,0), (0,1)` have normals `(0,1), (1,0)`, and the cone of these has normals
`(1,0), (0,1)`, which generate the first cone. -/
example : letI := Rational.field .debug
    letI := Rational.stability .debug
    letI := Rational.fieldOrd .debug
    (Cone.new [ratMat 2 1 [1, 1], ratMat 2 1 [1, 0], ratMat 2 1 [0, 1]] >>= fun c =>
      Cone.new (c.facets.map Face.normal) >>= fun c' =>
        pure (c.dim, c.facets.map Face.normal, c'.dim, c'.facets.map Face.normal)) =
      .ok (2, [ratMat 2 1 [0, 1], ratMat 2 1 [1, 0]], 2, [ratMat 2 1 [1, 0], ratMat 2 1 [0, 1]]) := by
  decide +kernel

private theorem plane_full {n : ℕ} (v : Fin n → Fin 2 → ℚ) (i j : Fin n) (hi : v i = ![1, 0]) (hj : v j = ![0, 1])
    {x : Fin 2 → ℚ} (h0 : x 0 = 0) (h1 : x 1 = 0)
    (hr : Module.finrank ℚ (Submodule.span ℚ (v '' {i | v i ⬝ᵥ x = 0})) + 1 = 2) : False := by
  have hx : x = 0 := by
    ext k
    fin_cases k
    · exact h0
    · exact h1
  subst hx
  have htop : Submodule.span ℚ (v '' {i | v i ⬝ᵥ (0 : Fin 2 → ℚ) = 0}) = ⊤ := by
    rw [Submodule.eq_top_iff']
    intro y
    have hy : y = y 0 • v i + y 1 • v j := by
      rw [hi, hj]
      ext k
      fin_cases k <;> simp
    rw [hy]
    exact Submodule.add_mem _ (Submodule.smul_mem _ _ (Submodule.subset_span ⟨i, dotProduct_zero _, rfl⟩))
      (Submodule.smul_mem _ _ (Submodule.subset_span ⟨j, dotProduct_zero _, rfl⟩))
  rw [htop, finrank_top, Module.finrank_fin_fun] at hr
  omega

/-- Both satisfy the condition on the first generator. -/
example : FirstOk (![![1, 1], ![1, 0], ![0, 1]] : Fin 3 → Fin 2 → ℚ) ∧
    FirstOk (![![0, 1], ![1, 0]] : Fin 2 → Fin 2 → ℚ) := by
  constructor
  · intro _ x hx hr h0
    have h1 := hx 1
    have h2 := hx 2
    have e0 : x 0 + x 1 = 0 := by simpa [dotProduct, Fin.sum_univ_two] using h0
    have e1 : 0 ≤ x 0 := by simpa [dotProduct, Fin.sum_univ_two] using h1
    have e2 : 0 ≤ x 1 := by simpa [dotProduct, Fin.sum_univ_two] using h2
    exact (plane_full _ 1 2 rfl rfl (by linarith) (by linarith) hr).elim
  · intro _ x hx hr h0
    have h1 := hx 1
    have e0 : x 1 = 0 := by simpa [dotProduct, Fin.sum_univ_two] using h0
    have e1 : 0 ≤ x 0 := by simpa [dotProduct, Fin.sum_univ_two] using h1
    rcases e1.lt_or_eq with h | h
    · refine ⟨0, h, fun j hj => ?_⟩
      fin_cases j
      · exact absurd hj (lt_irrefl _)
      · exact e0
    · exact (plane_full _ 1 0 rfl rfl h.symm e0 hr).elim

end examples
end Verif
