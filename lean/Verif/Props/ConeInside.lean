import Verif.Props.ConeSame

/-!
# Property C206: the sum of the generators first

The condition of C115 and C180 on the first generator holds for every full-dimensional cone if the sum of the
generators is put in front of them. So `Cone::new` can be made to describe every such cone, and to compute
intersections.
-/

namespace Verif
open Res LinAlg LawfulRField Matrix

/-! ### The programs -/

section
variable {F : Type} [RField F]

/-- The sum of a list of vectors. -/
def sumVectors : List (Mat F) → Res (Mat F)
  | [] => .panic .unwrapNone
  | g :: gs => gs.foldlM Mat.add g

variable [EpsilonEquality F] [StabilityCmp F] [FieldOrd F]

/-- `Cone::new` on the sum of the generators and the generators. -/
def coneInside (gs : List (Mat F)) : Res (Cone F) := do
  let s ← sumVectors gs
  Cone.new (s :: gs)

/-- The normals of the facets recorded for the first cone and for the second one, as generators. -/
def coneMeet (gs hs : List (Mat F)) : Res (Cone F) := do
  let c ← coneInside gs
  let d ← coneInside hs
  coneInside (c.facets.map Face.normal ++ d.facets.map Face.normal)

end

section
variable {F : Type} [RField F] [EpsilonEquality F] [StabilityCmp F] {K : Type} [Field K]
variable [LawfulRField F K] [LawfulPivot F K]
variable [LinearOrder K] [IsStrictOrderedRing K] [FieldOrd F] [LawfulOrd F K] {m : ℕ}

omit [EpsilonEquality F] [StabilityCmp F] [LawfulPivot F K] [LinearOrder K] [IsStrictOrderedRing K]
  [FieldOrd F] [LawfulOrd F K] in
theorem foldl_add_represents (f : Mat F → Fin m → K) :
    ∀ (l : List (Mat F)) (acc s : Mat F) (a : Fin m → K), acc.RepresentsVec a →
      (∀ g ∈ l, g.RepresentsVec (f g)) → l.foldlM Mat.add acc = .ok s →
      s.RepresentsVec (a + (l.map f).sum)
  | [], acc, s, a, ha, _, h => by
    cases h
    simpa using ha
  | g :: l, acc, s, a, ha, hl, h => by
    rw [List.foldlM_cons] at h
    obtain ⟨t, ht, h⟩ := bind_eq_ok.mp h
    have := (C52_add acc g _ _ ha (hl g (by simp))).of_ok ht
    have := foldl_add_represents f l t s (a + f g) this (fun x hx => hl x (by simp [hx])) h
    rwa [List.map_cons, List.sum_cons, ← add_assoc]

omit [EpsilonEquality F] [StabilityCmp F] [LawfulPivot F K] [LinearOrder K] [IsStrictOrderedRing K]
  [FieldOrd F] [LawfulOrd F K] in
theorem sumVectors_represents {gs : List (Mat F)} {v : Fin gs.length → Fin m → K}
    (hv : ∀ i, (gs.get i).RepresentsVec (v i)) {s : Mat F} (hs : sumVectors gs = .ok s) :
    s.RepresentsVec (∑ i, v i) := by
  classical
  obtain ⟨f, hf⟩ : ∃ f : Mat F → Fin m → K, ∀ i, f (gs.get i) = v i := by
    refine ⟨fun g => if h : ∃ x : Fin m → K, g.RepresentsVec x then h.choose else 0, fun i => ?_⟩
    have hx : ∃ x : Fin m → K, (gs.get i).RepresentsVec x := ⟨_, hv i⟩
    exact (dif_pos hx).trans (vec_unique hx.choose_spec (hv i))
  have hmem : ∀ g ∈ gs, g.RepresentsVec (f g) := by
    intro g hg
    obtain ⟨i, rfl⟩ := List.get_of_mem hg
    rw [hf]
    exact hv i
  have hsum : ∑ i, v i = (gs.map f).sum := by
    rw [← Fin.sum_univ_fun_getElem]
    exact Finset.sum_congr rfl fun i _ => (hf i).symm
  rw [hsum]
  rcases gs with _ | ⟨g, gs⟩
  · exact nomatch hs
  · have := foldl_add_represents f gs g s (f g) (hmem g (by simp)) (fun x hx => hmem x (by simp [hx])) hs
    rwa [List.map_cons, List.sum_cons]

omit [IsStrictOrderedRing K] in
theorem firstOk_sum {n : ℕ} {v : Fin n → Fin m → K} [IsStrictOrderedRing K]
    (hspan : Submodule.span K (Set.range (Fin.cons (∑ i, v i) v : Fin (n + 1) → Fin m → K)) = ⊤) :
    FirstOk (Fin.cons (∑ i, v i) v : Fin (n + 1) → Fin m → K) := by
  intro _ x hx hr h0
  exfalso
  have hs : (∑ i, v i) ⬝ᵥ x = 0 := h0
  have hall : ∀ i, v i ⬝ᵥ x = 0 := by
    rw [sum_dotProduct] at hs
    have := (Finset.sum_eq_zero_iff_of_nonneg fun i _ => by simpa using hx i.succ).mp hs
    exact fun i => this i (Finset.mem_univ i)
  have : {i | (Fin.cons (∑ i, v i) v : Fin (n + 1) → Fin m → K) i ⬝ᵥ x = 0} = Set.univ := by
    rw [Set.eq_univ_iff_forall]
    intro i
    refine Fin.cases ?_ (fun j => ?_) i
    · exact hs
    · exact hall j
  rw [this, Set.image_univ, hspan, finrank_top, Module.finrank_fin_fun] at hr
  omega

/-- The generators, with sizes such that one more fits. -/
structure Generators1 (gs : List (Mat F)) (v : Fin gs.length → Fin m → K) : Prop where
  repr : ∀ i, (gs.get i).RepresentsVec (v i)
  small : (gs.length + 1) * (gs.length + 1) < 18446744073709551616
  small' : (gs.length + 1) * m < 18446744073709551616

omit [LinearOrder K] [IsStrictOrderedRing K] [FieldOrd F] [LawfulOrd F K] [EpsilonEquality F]
  [StabilityCmp F] [LawfulPivot F K] in
theorem Generators1.cons {gs : List (Mat F)} {v : Fin gs.length → Fin m → K} (hg : Generators1 gs v)
    {s : Mat F} (hs : sumVectors gs = .ok s) :
    Generators (s :: gs) (Fin.cons (∑ i, v i) v : Fin (gs.length + 1) → Fin m → K) :=
  ⟨fun i => Fin.cases (sumVectors_represents hg.repr hs) (fun j => hg.repr j) i, hg.small, hg.small'⟩

theorem conic_cons_sum {n : ℕ} (v : Fin n → Fin m → K) (b : Fin m → K) :
    Conic (Fin.cons (∑ i, v i) v : Fin (n + 1) → Fin m → K) b ↔ Conic v b := by
  constructor
  · rintro ⟨a, ha, rfl⟩
    refine ⟨fun i => a 0 + a i.succ, fun i => add_nonneg (ha 0) (ha _), ?_⟩
    rw [Fin.sum_univ_succ]
    simp only [Fin.cons_zero, Fin.cons_succ]
    rw [Finset.smul_sum, ← Finset.sum_add_distrib]
    exact Finset.sum_congr rfl fun i _ => (add_smul _ _ _).symm
  · rintro ⟨a, ha, rfl⟩
    refine ⟨Fin.cons 0 a, fun i => Fin.cases le_rfl ha i, ?_⟩
    rw [Fin.sum_univ_succ]
    simp

/-- **C206** With the sum of the generators in front, the recorded half-spaces describe the cone: for a
full-dimensional cone a vector is a nonnegative combination of the generators exactly when its products with
all recorded normals are nonnegative. -/
theorem C206_halfspaces {gs : List (Mat F)} {v : Fin gs.length → Fin m → K} (hg : Generators1 gs v)
    {c : Cone F} (hc : coneInside gs = .ok c) (hm : c.dim = m) (b : Fin m → K) :
    Conic v b ↔ ∀ f ∈ c.facets, ∀ x : Fin m → K, f.normal.RepresentsVec x → 0 ≤ b ⬝ᵥ x := by
  obtain ⟨s, hs, hc⟩ := bind_eq_ok.mp hc
  have hg' := hg.cons hs
  obtain ⟨-, -, hdim, -⟩ := C71_cone _ _ hg'.repr hg'.small hg'.small' c hc
  have hok := firstOk_sum (v := v) (Submodule.eq_top_of_finrank_eq (by
    rw [Module.finrank_fin_fun, ← hdim, hm]))
  rw [← conic_cons_sum]
  exact (C115_halfspaces _ _ hg'.repr hg'.small hg'.small' (by simp) c hc hm).mpr
    (fun x h1 h2 h3 => hok (by simp) x h1 h2 h3) b

/-- **C206** And the recorded normals generate the dual cone. -/
theorem C206_dual {gs : List (Mat F)} {v : Fin gs.length → Fin m → K} (hg : Generators1 gs v)
    {c : Cone F} (hc : coneInside gs = .ok c) (hm : c.dim = m)
    {w : Fin (c.facets.map Face.normal).length → Fin m → K}
    (hw : ∀ i, ((c.facets.map Face.normal).get i).RepresentsVec (w i)) (y : Fin m → K) :
    Conic w y ↔ ∀ i, 0 ≤ v i ⬝ᵥ y :=
  (conic_dual_iff v w).mp (fun b => by rw [C206_halfspaces hg hc hm b, inside_iff hw]) y

/-- **C206** Intersections: the normals recorded for the cone that the normals of two full-dimensional
cones generate are generators of the intersection of the two, provided that this contains no line. -/
theorem C206_meet {gs hs : List (Mat F)} {v : Fin gs.length → Fin m → K} {u : Fin hs.length → Fin m → K}
    (hg : Generators1 gs v) (hh : Generators1 hs u) {c d e : Cone F} (hc : coneInside gs = .ok c)
    (hd : coneInside hs = .ok d) (he : coneMeet gs hs = .ok e) (hcm : c.dim = m) (hdm : d.dim = m)
    (hem : e.dim = m)
    {w : Fin (c.facets.map Face.normal ++ d.facets.map Face.normal).length → Fin m → K}
    (hw : Generators1 (c.facets.map Face.normal ++ d.facets.map Face.normal) w)
    {x : Fin (e.facets.map Face.normal).length → Fin m → K}
    (hx : ∀ i, ((e.facets.map Face.normal).get i).RepresentsVec (x i)) (b : Fin m → K) :
    Conic x b ↔ Conic v b ∧ Conic u b := by
  have he' : coneInside (c.facets.map Face.normal ++ d.facets.map Face.normal) = .ok e := by
    unfold coneMeet at he
    rwa [hc, bind_ok, hd, bind_ok] at he
  rw [C206_dual hw he' hem hx, C206_halfspaces hg hc hcm, C206_halfspaces hh hd hdm]
  have key : ∀ f ∈ c.facets ++ d.facets, ∃ i :
      Fin (c.facets.map Face.normal ++ d.facets.map Face.normal).length,
      f.normal.RepresentsVec (w i) := by
    intro f hf
    have : f.normal ∈ c.facets.map Face.normal ++ d.facets.map Face.normal := by
      rw [← List.map_append]
      exact List.mem_map_of_mem (f := Face.normal) hf
    obtain ⟨i, hi⟩ := List.get_of_mem this
    exact ⟨i, hi ▸ hw.repr i⟩
  constructor
  · intro h
    constructor
    · intro f hf y hy
      obtain ⟨i, hi⟩ := key f (by simp [hf])
      rw [vec_unique hy hi, dotProduct_comm]
      exact h i
    · intro f hf y hy
      obtain ⟨i, hi⟩ := key f (by simp [hf])
      rw [vec_unique hy hi, dotProduct_comm]
      exact h i
  · rintro ⟨h1, h2⟩ i
    rw [dotProduct_comm]
    have hm := List.get_mem (c.facets.map Face.normal ++ d.facets.map Face.normal) i
    have hi := hw.repr i
    rcases List.mem_append.mp hm with hm | hm
    · obtain ⟨f, hf, hfe⟩ := List.mem_map.mp hm
      exact h1 f hf _ (hfe ▸ hi)
    · obtain ⟨f, hf, hfe⟩ := List.mem_map.mp hm
      exact h2 f hf _ (hfe ▸ hi)

end

section examples
attribute [local instance] Rational.lawful

/-- The cone of `C202_first`, whose facets `Cone::new` does not find, and two cones with their intersection,
which is generated by `(1,2)` and `(1,1)`. -/
theorem C206_run : letI := Rational.field .debug
    letI := Rational.stability .debug
    letI := Rational.fieldOrd .debug
    (fun c => (c.dim, c.facets.map Face.normal)) <$> coneInside [ratMat 2 1 [1, 0], ratMat 2 1 [0, -1]] =
      .ok (2, [ratMat 2 1 [0, -1], ratMat 2 1 [1, 0]]) ∧
    (fun c => (c.dim, c.facets.map Face.normal)) <$> coneInside [ratMat 2 1 [1, 0], ratMat 2 1 [1, 2]] =
      .ok (2, [ratMat 2 1 [0, 1], ratMat 2 1 [2, -1]]) ∧
    (fun c => (c.dim, c.facets.map Face.normal)) <$> coneInside [ratMat 2 1 [1, 1], ratMat 2 1 [0, 1]] =
      .ok (2, [ratMat 2 1 [-1, 1], ratMat 2 1 [1, 0]]) ∧
    (fun c => (c.dim, c.facets.map Face.normal)) <$> coneMeet [ratMat 2 1 [1, 0], ratMat 2 1 [1, 2]]
        [ratMat 2 1 [1, 1], ratMat 2 1 [0, 1]] =
      .ok (2, [⟨[⟨1, 2⟩, ⟨1, 1⟩], 2, 1⟩, ratMat 2 1 [1, 1]]) := by
  refine ⟨?_, ?_, ?_, ?_⟩ <;> decide +kernel

/-- The sizes and values of the generators are as `C206_meet` needs them. -/
example : letI := Rational.field .debug
    letI := Rational.lawful
    Generators1 [ratMat 2 1 [1, 0], ratMat 2 1 [1, 2]] (![![1, 0], ![1, 2]] : Fin 2 → Fin 2 → ℚ) := by
  let _ := Rational.field .debug
  refine ⟨fun i => ?_, by decide, by decide⟩
  have h0 := ratMat_represents 2 1 [1, 0] rfl (by decide) (by decide) (by decide)
  have h1 := ratMat_represents 2 1 [1, 2] rfl (by decide) (by decide) (by decide)
  fin_cases i
  · have e : (Matrix.of fun i (_ : Fin 1) => (![1, 0] : Fin 2 → ℚ) i) =
          fun (k : Fin 2) (l : Fin 1) => ((([1, 0] : List Int).getD ((k : ℕ) * 1 + l) 0 : Int) : ℚ) := by
      ext k l
      fin_cases k <;> fin_cases l <;> simp
    exact (congrArg (ratMat 2 1 [1, 0]).Represents e).mpr h0
  · have e : (Matrix.of fun i (_ : Fin 1) => (![1, 2] : Fin 2 → ℚ) i) =
          fun (k : Fin 2) (l : Fin 1) => ((([1, 2] : List Int).getD ((k : ℕ) * 1 + l) 0 : Int) : ℚ) := by
      ext k l
      fin_cases k <;> fin_cases l <;> simp
    exact (congrArg (ratMat 2 1 [1, 2]).Represents e).mpr h1

end examples
end Verif
