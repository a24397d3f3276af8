import Mathlib.Data.List.NodupEquivFin
import Mathlib.LinearAlgebra.Matrix.Rank
import Verif.LinAlg.Cone
import Verif.Props.Elim
import Verif.Props.Num

/-!
# Properties C71, C72 and C77: cones

`F` is a coefficient type implementing a linearly ordered field `K` (`Rational` with `K = ℚ`).
-/

set_option linter.unusedSectionVars false

namespace Verif
open Res LawfulRField LinAlg

/-- The comparison of the program is that of `K`. -/
class LawfulOrd (F : Type) [RField F] (K : Type) [Field K] [LinearOrder K] [LawfulRField F K]
    [FieldOrd F] : Prop where
  cmp_spec : ∀ x y : F, wf x → wf y →
    Spec (allowed F) (FieldOrd.partialCmp x y) (fun o => o = some (compare (val x : K) (val y)))

theorem Rational.lawfulOrd : letI := Rational.field .debug
    letI := Rational.lawful
    letI := Rational.fieldOrd .debug
    LawfulOrd Rational ℚ :=
  letI := Rational.field .debug
  letI := Rational.lawful
  letI := Rational.fieldOrd .debug
  { cmp_spec := fun x y hx hy => (C10_cmp x y hx.1 hy.1).2 }

/-! ### Combinations -/

theorem mem_combinationsList {α : Type} {k : ℕ} {l s : List α} :
    s ∈ combinationsList k l ↔ s.Sublist l ∧ s.length = k := by
  induction l generalizing k s with
  | nil => cases k <;> (simp [combinationsList]; try aesop)
  | cons x xs ih =>
    cases k with
    | zero =>
      simp only [combinationsList, List.mem_singleton, List.length_eq_zero_iff]
      constructor
      · rintro rfl; simp
      · exact fun h => h.2
    | succ k =>
      simp only [combinationsList, List.mem_append, List.mem_map, ih]
      constructor
      · rintro (⟨t, ⟨h1, h2⟩, rfl⟩ | ⟨h1, h2⟩)
        · exact ⟨h1.cons_cons x, by simp [h2]⟩
        · exact ⟨h1.cons x, h2⟩
      · rintro ⟨h1, h2⟩
        cases h1 with
        | cons _ h => exact Or.inr ⟨h, h2⟩
        | cons_cons _ h => exact Or.inl ⟨_, ⟨h, by simpa using h2⟩, rfl⟩

variable {F : Type} [RField F] {K : Type} [Field K] [LawfulRField F K] [EpsilonEquality F]
  [StabilityCmp F] [LawfulPivot F K]

theorem spec_bind {α β : Type} {E : Panic → Prop} {x : Res α} {f : α → Res β} {P : β → Prop} :
    Spec E (x >>= f) P ↔ Spec E x (fun a => Spec E (f a) P) := by
  cases x <;> exact Iff.rfl

/-- The rank and the kernel read off the reduced row echelon form, without recomputing it. -/
theorem rref_rank_kernel {n m : ℕ} (M : Mat F) (A : Matrix (Fin n) (Fin m) K) (hM : M.Represents A)
    (hn : n * n < 18446744073709551616) : Spec (allowed F) (rref M) (fun f =>
      Spec (allowed F) f.rank (fun r => r = A.rank) ∧
      Spec (allowed F) f.computeKernel
        (fun ks => ∃ v : Fin ks.length → Fin m → K, (∀ i, (ks.get i).RepresentsVec (v i)) ∧
          LinearIndependent K v ∧
          Submodule.span K (Set.range v) = LinearMap.ker A.mulVecLin)) := by
  refine (rref_spec M A hM hn).imp fun f ⟨b, k, piv, hf, he⟩ => ?_
  obtain ⟨p, _, hu, hpa⟩ := hf.p_is
  rw [mat_matExt] at hpa
  constructor
  · refine (hf.rank he.toEch).imp fun r hr => ?_
    have h := he.toEch.rank_eq
    rw [← hpa, rank_of_unit hu] at h
    rw [hr, h]
  · refine (hf.computeKernel he.toEch).imp fun ks hks => ?_
    obtain ⟨hl, hv⟩ := forall₂_vecs hks
    obtain ⟨h1, h2⟩ := he.kernel_basis
    refine ⟨_, hv, h1.comp _ (finCongr hl).injective, ?_⟩
    have hker : LinearMap.ker (mat n m b).mulVecLin = LinearMap.ker A.mulVecLin := by
      ext x
      rw [LinearMap.mem_ker, LinearMap.mem_ker, Matrix.mulVecLin_apply, Matrix.mulVecLin_apply, ← hpa,
        mulVec_unit hu]
    rw [← hker, ← h2]
    congr 1
    exact (finCongr hl).surjective.range_comp (fun (q : Fin (freeCols m k piv).length) (j : Fin m) =>
      kv b k piv ((freeCols m k piv).get q) j)

variable [LinearOrder K] [IsStrictOrderedRing K] [FieldOrd F] [LawfulOrd F K]

open Matrix

theorem allAbove_spec {m : ℕ} (normal : Mat F) (x : Fin m → K) (hx : normal.RepresentsVec x)
    (gs : List (Mat F)) (v : Fin gs.length → Fin m → K) (hv : ∀ i, (gs.get i).RepresentsVec (v i)) :
    Spec (allowed F) (Cone.allAbove normal gs) (fun b => b = true ↔ ∀ i, 0 ≤ v i ⬝ᵥ x) := by
  induction gs with
  | nil => simp only [Cone.allAbove, spec_ok]; exact ⟨fun _ i => i.elim0, fun _ => trivial⟩
  | cons g gs ih =>
    have h0 := hv ⟨0, by simp⟩
    unfold Cone.allAbove
    refine (C56_dot g normal _ _ h0 hx).bind fun d hd => ?_
    refine (LawfulOrd.cmp_spec (K := K) d RField.zero hd.1 wf_zero).bind fun o ho => ?_
    rw [hd.2, val_zero] at ho
    have hall : (∀ i, 0 ≤ v i ⬝ᵥ x) ↔ 0 ≤ v ⟨0, by simp⟩ ⬝ᵥ x ∧
        ∀ i : Fin gs.length, 0 ≤ v i.succ ⬝ᵥ x := Fin.forall_fin_succ
    rw [hall]
    have ih := ih (fun i => v i.succ) fun i => hv i.succ
    subst ho
    rcases lt_trichotomy (v ⟨0, by simp⟩ ⬝ᵥ x) 0 with h | h | h
    · rw [compare_lt_iff_lt.2 h]
      exact ⟨fun h' => (by cases h'), fun h' => absurd h'.1 (not_le.2 h)⟩
    · rw [compare_eq_iff_eq.2 h]
      refine ih.imp fun b hb => hb.trans ⟨fun h' => ⟨h.ge, h'⟩, fun h' => h'.2⟩
    · rw [compare_gt_iff_gt.2 h]
      refine ih.imp fun b hb => hb.trans ⟨fun h' => ⟨h.le, h'⟩, fun h' => h'.2⟩

/-- What `facetOf` returns for the subset at the positions `s`. -/
theorem facetOf_spec {m k : ℕ} (gs : List (Mat F)) (v : Fin gs.length → Fin m → K)
    (hv : ∀ i, (gs.get i).RepresentsVec (v i)) (h0 : 0 < gs.length)
    (hnn : gs.length * gs.length < 18446744073709551616)
    (hnm : gs.length * m < 18446744073709551616)
    (hk0 : k ≠ 0) (hkm : k < m)
    (sub : List (Mat F)) (hk : sub.length = k) (s : Fin sub.length ↪o Fin gs.length)
    (hs : ∀ i, sub.get i = gs.get (s i)) :
    Spec (allowed F) (Cone.facetOf gs k sub) (fun o =>
      (∀ f, o = some f → f.generators = sub ∧ LinearIndependent K (fun i => v (s i)) ∧
        ∃ x : Fin m → K, f.normal.RepresentsVec x ∧ x ≠ 0 ∧ (∀ i, 0 ≤ v i ⬝ᵥ x) ∧
          ∀ i, v (s i) ⬝ᵥ x = 0) ∧
      (o = none → k + 1 = m → LinearIndependent K (fun i => v (s i)) → ∀ w : Fin m → K,
        (∀ i, v (s i) ⬝ᵥ w = 0) → (∀ i, 0 ≤ v i ⬝ᵥ w) → ¬ 0 < v ⟨0, h0⟩ ⬝ᵥ w)) := by
  have hle : sub.length ≤ gs.length := by
    have := Fintype.card_le_of_injective s s.injective
    simpa using this
  have hsub : ∀ i, (sub.get i).RepresentsVec (v (s i)) := fun i => by rw [hs]; exact hv _
  have hne : sub ≠ [] := by rintro rfl; exact hk0 hk.symm
  unfold Cone.facetOf
  have hlt : gs.length < 18446744073709551616 := by nlinarith
  refine ((C51_from_row_vectors m sub _ hne hsub (by omega)
    (lt_of_le_of_lt (Nat.mul_le_mul_right _ hle) hnm)).mono (fun _ h => h.elim) fun _ h => h).bind
    fun sm hsm => ?_
  set A : Matrix (Fin sub.length) (Fin m) K := Matrix.of fun i => v (s i) with hA
  have hrr := rref_rank_kernel sm A hsm (lt_of_le_of_lt (Nat.mul_le_mul hle hle) hnn)
  unfold rref at hrr
  rw [spec_bind] at hrr
  refine hrr.bind fun form hform => hform.bind fun f hf => ?_
  obtain ⟨hrank, hker⟩ := hf
  refine hrank.bind fun r hr => ?_
  subst hr
  -- linear independence of the subset
  have hLI : LinearIndependent K (fun i => v (s i)) ↔ A.rank = k := by
    rw [← hk]
    have : LinearIndependent K (fun i => v (s i)) ↔ LinearIndependent K A.row := Iff.rfl
    rw [this, Matrix.rank_eq_finrank_span_row, linearIndependent_iff_card_eq_finrank_span]
    simp [Set.finrank, eq_comm]
  split
  · next h => exact ⟨fun f hf => (by cases hf), fun _ _ hli => absurd (hLI.1 hli) h⟩
  next hrk =>
  have hrk : A.rank = k := by simpa using hrk
  have hli := hLI.2 hrk
  refine hker.bind fun ks hks => ?_
  obtain ⟨u, hu, huli, hspan⟩ := hks
  have hdim : ks.length + k = m := by
    have h1 := finrank_span_eq_card huli
    rw [hspan] at h1
    have h2 := finrank_ker A
    simp only [Fintype.card_fin] at h1
    omega
  have hpos : 0 < ks.length := by omega
  have hmem : ∀ w : Fin m → K, w ∈ LinearMap.ker A.mulVecLin ↔ ∀ i, v (s i) ⬝ᵥ w = 0 := by
    intro w
    rw [LinearMap.mem_ker, Matrix.mulVecLin_apply, funext_iff]
    exact Iff.rfl
  rw [show Mat.nth ks 0 = .ok ks[0] by unfold Mat.nth; rw [List.getElem?_eq_getElem hpos], bind_ok,
    show Mat.nth gs 0 = .ok gs[0] by unfold Mat.nth; rw [List.getElem?_eq_getElem h0], bind_ok]
  have hx0 := hu ⟨0, hpos⟩
  set x := u ⟨0, hpos⟩ with hx
  have hxne : x ≠ 0 := huli.ne_zero _
  have hxker : ∀ i, v (s i) ⬝ᵥ x = 0 := by
    rw [← hmem, ← hspan]
    exact Submodule.subset_span ⟨_, rfl⟩
  have hone : k + 1 = m → ∀ w : Fin m → K, (∀ i, v (s i) ⬝ᵥ w = 0) → ∃ c : K, c • x = w := by
    intro hk1 w hw
    rw [← hmem, ← hspan] at hw
    have hsub : ∀ i : Fin ks.length, i = ⟨0, hpos⟩ := fun i => by
      apply Fin.ext; have := i.2; simp only; omega
    have : Set.range u = {x} := by
      ext y
      simp only [Set.mem_range, Set.mem_singleton_iff]
      constructor
      · rintro ⟨i, rfl⟩; rw [hsub i]
      · rintro rfl; exact ⟨_, rfl⟩
    rw [this] at hw
    exact Submodule.mem_span_singleton.1 hw
  refine (C56_dot gs[0] ks[0] (v ⟨0, h0⟩) x (hv ⟨0, h0⟩) hx0).bind fun d hd => ?_
  refine (LawfulOrd.cmp_spec (K := K) d RField.zero hd.1 wf_zero).bind fun o ho => ?_
  rw [hd.2, val_zero] at ho
  subst ho
  dsimp only
  -- the rest of the loop body, with the reoriented normal
  have hrest : ∀ (nm : Mat F) (y : Fin m → K), nm.RepresentsVec y → y ≠ 0 →
      (∀ i, v (s i) ⬝ᵥ y = 0) → 0 ≤ v ⟨0, h0⟩ ⬝ᵥ y → (∃ c : K, x = c • y) →
      Spec (allowed F) (do
        if ← Cone.allAbove nm gs then pure (some (⟨nm, sub⟩ : Face F)) else pure none) (fun o =>
      (∀ f, o = some f → f.generators = sub ∧ LinearIndependent K (fun i => v (s i)) ∧
        ∃ x : Fin m → K, f.normal.RepresentsVec x ∧ x ≠ 0 ∧ (∀ i, 0 ≤ v i ⬝ᵥ x) ∧
          ∀ i, v (s i) ⬝ᵥ x = 0) ∧
      (o = none → k + 1 = m → LinearIndependent K (fun i => v (s i)) → ∀ w : Fin m → K,
        (∀ i, v (s i) ⬝ᵥ w = 0) → (∀ i, 0 ≤ v i ⬝ᵥ w) → ¬ 0 < v ⟨0, h0⟩ ⬝ᵥ w)) := by
    rintro nm y hy hyne hyker hy0 ⟨c, hxy⟩
    refine (allAbove_spec nm y hy gs v hv).bind fun b hb => ?_
    cases b with
    | true =>
      refine ⟨fun f hf => ?_, fun h => (by cases h)⟩
      cases hf
      exact ⟨rfl, hli, y, hy, hyne, hb.1 rfl, hyker⟩
    | false =>
      refine ⟨fun f hf => (by cases hf), fun _ hk1 _ w hw hwall hw0 => ?_⟩
      obtain ⟨e, he⟩ := hone hk1 w hw
      rw [hxy, smul_smul] at he
      have hb' : ¬ ∀ i, 0 ≤ v i ⬝ᵥ y := fun h => (by cases hb.2 h)
      apply hb'
      rw [← he, dotProduct_smul, smul_eq_mul] at hw0
      have hec : 0 < e * c := by
        by_contra h
        exact absurd hw0 (not_lt.2 (mul_nonpos_of_nonpos_of_nonneg (not_lt.1 h) hy0))
      intro i
      have := hwall i
      rw [← he, dotProduct_smul, smul_eq_mul] at this
      exact nonneg_of_mul_nonneg_right this hec
  rcases lt_trichotomy (v ⟨0, h0⟩ ⬝ᵥ x) 0 with h | h | h
  · rw [compare_lt_iff_lt.2 h]
    refine (sub_spec (K := K) RField.zero RField.one wf_zero wf_one).bind fun c hc => ?_
    have hcv : val c = (-1 : K) := by rw [hc.2, val_zero, val_one]; ring
    refine (C52_smul ks[0] _ hx0 c hc.1).2.bind fun R hR => hrest R (-x) ?_ ?_ ?_ ?_ ⟨-1, ?_⟩
    · rw [hcv] at hR
      unfold Mat.RepresentsVec
      convert hR using 1
      ext i j
      simp
    · exact neg_ne_zero.2 hxne
    · intro i; rw [dotProduct_neg, hxker, neg_zero]
    · rw [dotProduct_neg]; exact (neg_pos.2 h).le
    · simp
  · rw [compare_eq_iff_eq.2 h]
    exact hrest _ x hx0 hxne hxker h.ge ⟨1, (one_smul _ _).symm⟩
  · rw [compare_gt_iff_gt.2 h]
    exact hrest _ x hx0 hxne hxker h.le ⟨1, (one_smul _ _).symm⟩

/-! ## C71, C72, C77, C78 -/

section
variable {m : ℕ} (gs : List (Mat F)) (v : Fin gs.length → Fin m → K)
  (hv : ∀ i, (gs.get i).RepresentsVec (v i)) (h0 : 0 < gs.length)
  (hnn : gs.length * gs.length < 18446744073709551616)
  (hnm : gs.length * m < 18446744073709551616)
include hv hnn hnm

/-- Everything known about `Cone::new` on generators that span at least a plane. -/
theorem cone_new_spec (hr : 2 ≤ (Matrix.of v).rank) :
    Spec (allowed F) (Cone.new gs) (fun c =>
      c.generators = gs ∧ c.ambientDim = m ∧ c.dim = (Matrix.of v).rank ∧
      (∃ w : Fin c.orthCompBasis.length → Fin m → K,
        (∀ i, (c.orthCompBasis.get i).RepresentsVec (w i)) ∧ LinearIndependent K w ∧
        Submodule.span K (Set.range w) = LinearMap.ker (Matrix.of v).mulVecLin) ∧
      (∀ f ∈ c.facets, ∃ s : Fin f.generators.length ↪o Fin gs.length,
        (∀ i, f.generators.get i = gs.get (s i)) ∧
        f.generators.length + 1 = (Matrix.of v).rank ∧ LinearIndependent K (fun i => v (s i)) ∧
        ∃ x : Fin m → K, f.normal.RepresentsVec x ∧ x ≠ 0 ∧ (∀ i, 0 ≤ v i ⬝ᵥ x) ∧
          ∀ i, v (s i) ⬝ᵥ x = 0) ∧
      ((Matrix.of v).rank = m → ∀ (sub : List (Mat F)) (s : Fin sub.length ↪o Fin gs.length),
        (∀ i, sub.get i = gs.get (s i)) → sub.length + 1 = m →
        LinearIndependent K (fun i => v (s i)) → ∀ w : Fin m → K,
        (∀ i, v (s i) ⬝ᵥ w = 0) → (∀ i, 0 ≤ v i ⬝ᵥ w) → 0 < v ⟨0, h0⟩ ⬝ᵥ w →
        ∃ f ∈ c.facets, f.generators = sub)) := by
  have hlt : gs.length < 18446744073709551616 := by nlinarith
  have hrn : (Matrix.of v).rank ≤ gs.length := by simpa using (Matrix.of v).rank_le_height
  have hrm : (Matrix.of v).rank ≤ m := (Matrix.of v).rank_le_width
  have hsmall : gs.length < 1152921504606846976 := by
    by_contra h
    have : 1152921504606846976 * 1152921504606846976 ≤ gs.length * gs.length :=
      Nat.mul_le_mul (by omega) (by omega)
    omega
  unfold Cone.new
  rw [show Mat.nth gs 0 = .ok gs[0] by unfold Mat.nth; rw [List.getElem?_eq_getElem h0], bind_ok]
  refine ((C51_from_row_vectors m gs v (List.ne_nil_of_length_pos h0) hv hlt hnm).mono
    (fun _ h => h.elim) fun _ h => h).bind fun gm hgm => ?_
  have hrr := rref_rank_kernel gm (Matrix.of v) hgm hnn
  unfold rref at hrr
  rw [spec_bind] at hrr
  refine hrr.bind fun form hform => hform.bind fun f hf => ?_
  obtain ⟨hrank, hker⟩ := hf
  refine hrank.bind fun r hr' => ?_
  subst hr'
  refine hker.bind fun ks hks => ?_
  rw [show Usize.sub (RField.build F) (Matrix.of v).rank 1 = .ok ((Matrix.of v).rank - 1) by
    unfold Usize.sub; rw [if_pos (by omega)], bind_ok]
  set k := (Matrix.of v).rank - 1 with hk
  rw [show combinations gs k = .ok (combinationsList k gs) by
    unfold combinations; rw [if_neg (by omega)], bind_ok]
  refine Spec.bind (P := fun facets =>
      (∀ f ∈ facets, ∃ s : Fin f.generators.length ↪o Fin gs.length,
        (∀ i, f.generators.get i = gs.get (s i)) ∧
        f.generators.length + 1 = (Matrix.of v).rank ∧ LinearIndependent K (fun i => v (s i)) ∧
        ∃ x : Fin m → K, f.normal.RepresentsVec x ∧ x ≠ 0 ∧ (∀ i, 0 ≤ v i ⬝ᵥ x) ∧
          ∀ i, v (s i) ⬝ᵥ x = 0) ∧
      ((Matrix.of v).rank = m → ∀ sub ∈ combinationsList k gs,
        ∀ (s : Fin sub.length ↪o Fin gs.length),
        (∀ i, sub.get i = gs.get (s i)) →
        LinearIndependent K (fun i => v (s i)) → ∀ w : Fin m → K,
        (∀ i, v (s i) ⬝ᵥ w = 0) → (∀ i, 0 ≤ v i ⬝ᵥ w) → 0 < v ⟨0, h0⟩ ⬝ᵥ w →
        ∃ f ∈ facets, f.generators = sub)) ?_ fun facets hfacets => ?_
  · refine (foldlM_spec (fun done (facets : List (Face F)) =>
      (∀ f ∈ facets, ∃ s : Fin f.generators.length ↪o Fin gs.length,
        (∀ i, f.generators.get i = gs.get (s i)) ∧
        f.generators.length + 1 = (Matrix.of v).rank ∧ LinearIndependent K (fun i => v (s i)) ∧
        ∃ x : Fin m → K, f.normal.RepresentsVec x ∧ x ≠ 0 ∧ (∀ i, 0 ≤ v i ⬝ᵥ x) ∧
          ∀ i, v (s i) ⬝ᵥ x = 0) ∧
      ((Matrix.of v).rank = m → ∀ sub ∈ done, ∀ (s : Fin sub.length ↪o Fin gs.length),
        (∀ i, sub.get i = gs.get (s i)) →
        LinearIndependent K (fun i => v (s i)) → ∀ w : Fin m → K,
        (∀ i, v (s i) ⬝ᵥ w = 0) → (∀ i, 0 ≤ v i ⬝ᵥ w) → 0 < v ⟨0, h0⟩ ⬝ᵥ w →
        ∃ f ∈ facets, f.generators = sub)) ?_ ?_)
    · exact ⟨fun f hf => (by cases hf), fun _ sub hsub => (by cases hsub)⟩
    · intro done sub rest facets heq ⟨hsound, hcomp⟩
      obtain ⟨hsl, hlen⟩ := mem_combinationsList.1 (heq ▸ (by simp) : sub ∈ combinationsList k gs)
      obtain ⟨s, hs⟩ := List.sublist_iff_exists_fin_orderEmbedding_get_eq.1 hsl
      have key := fun s hs => facetOf_spec gs v hv h0 hnn hnm (by omega : k ≠ 0) (by omega) sub hlen s hs
      refine (key s hs).bind' fun o ho hos => ?_
      cases o with
      | none =>
        refine ⟨hsound, fun hrkm sub' hsub' s' hs' hli w hw1 hw2 hw3 => ?_⟩
        rcases List.mem_append.1 hsub' with h | h
        · exact hcomp hrkm sub' h s' hs' hli w hw1 hw2 hw3
        · rw [List.mem_singleton] at h
          subst h
          exact absurd hw3 (((key s' hs').of_ok ho).2 rfl (by omega) hli w hw1 hw2)
      | some f =>
        obtain ⟨hfs, hfli, x, hx⟩ := hos.1 f rfl
        refine ⟨fun f' hf' => ?_, fun hrkm sub' hsub' s' hs' hli w hw1 hw2 hw3 => ?_⟩
        · rcases List.mem_append.1 hf' with h | h
          · exact hsound f' h
          · rw [List.mem_singleton] at h
            subst h
            subst hfs
            exact ⟨s, hs, by omega, hfli, x, hx⟩
        · rcases List.mem_append.1 hsub' with h | h
          · obtain ⟨f', hf', he⟩ := hcomp hrkm sub' h s' hs' hli w hw1 hw2 hw3
            exact ⟨f', List.mem_append_left _ hf', he⟩
          · rw [List.mem_singleton] at h
            subst h
            exact ⟨f, by simp, hfs⟩
  · refine ⟨rfl, (hv ⟨0, h0⟩).rows, rfl, hks, hfacets.1, fun hrkm sub s hs hlen => ?_⟩
    exact hfacets.2 hrkm sub (mem_combinationsList.2
      ⟨List.sublist_iff_exists_fin_orderEmbedding_get_eq.2 ⟨s, hs⟩, by omega⟩) s hs

/-- Generators that span less than a plane make `Cone::new` panic: `dim - 1` underflows when they
are all zero, and for `dim = 1` the (only) subset is empty, which `from_row_vectors` rejects. -/
theorem C72_cone_new_panics (hr : (Matrix.of v).rank < 2) :
    Spec (fun _ => True) (Cone.new gs) (fun _ => False) := by
  have hlt : gs.length < 18446744073709551616 := by nlinarith
  rcases Nat.eq_zero_or_pos gs.length with h0 | h0
  · rw [List.length_eq_zero_iff.1 h0]; trivial
  unfold Cone.new
  rw [show Mat.nth gs 0 = .ok gs[0] by unfold Mat.nth; rw [List.getElem?_eq_getElem h0], bind_ok]
  refine ((C51_from_row_vectors m gs v (List.ne_nil_of_length_pos h0) hv hlt hnm).mono
    (fun _ h => h.elim) fun _ h => h).bind fun gm hgm => ?_
  have hrr := rref_rank_kernel gm (Matrix.of v) hgm hnn
  unfold rref at hrr
  rw [spec_bind] at hrr
  refine (hrr.mono (fun _ _ => trivial) fun _ h => h).bind fun form hform =>
    (hform.mono (fun _ _ => trivial) fun _ h => h).bind fun f hf => ?_
  obtain ⟨hrank, hker⟩ := hf
  refine (hrank.mono (fun _ _ => trivial) fun _ h => h).bind fun r hr' => ?_
  subst hr'
  refine (hker.mono (fun _ _ => trivial) fun _ h => h).bind fun ks hks => ?_
  rcases Nat.eq_zero_or_pos (Matrix.of v).rank with h | h
  · rw [h]
    unfold Usize.sub combinations
    rw [if_neg (by omega)]
    cases RField.build F <;> simp [bind_ok]
  · rw [show (Matrix.of v).rank = 1 by omega]
    unfold Usize.sub combinations
    rw [if_pos (by omega), bind_ok, if_neg (by omega), bind_ok]
    rw [show combinationsList (1 - 1) gs = [[]] by cases gs <;> rfl]
    trivial

/-- **C71** Whenever `Cone::new` returns, every facet it recorded has a nonzero normal that is
nonnegative on all generators and vanishes on the facet's generators, which are `dim - 1` linearly
independent generators at increasing positions; `dim` is the dimension of the span of the
generators; the orthogonal-complement basis is a basis of the vectors orthogonal to all
generators. -/
theorem C71_cone (c : Cone F) (hc : Cone.new gs = .ok c) :
    c.generators = gs ∧ c.ambientDim = m ∧
    c.dim = Module.finrank K (Submodule.span K (Set.range v)) ∧
    (∀ f ∈ c.facets, ∃ (s : Fin f.generators.length ↪o Fin gs.length) (x : Fin m → K),
      (∀ i, f.generators.get i = gs.get (s i)) ∧ f.generators.length + 1 = c.dim ∧
      LinearIndependent K (fun i => v (s i)) ∧
      f.normal.RepresentsVec x ∧ x ≠ 0 ∧ (∀ i, 0 ≤ v i ⬝ᵥ x) ∧ ∀ i, v (s i) ⬝ᵥ x = 0) ∧
    (∃ w : Fin c.orthCompBasis.length → Fin m → K,
      (∀ i, (c.orthCompBasis.get i).RepresentsVec (w i)) ∧ LinearIndependent K w ∧
      ∀ x, x ∈ Submodule.span K (Set.range w) ↔ ∀ i, v i ⬝ᵥ x = 0) := by
  have h0 : 0 < gs.length := by
    by_contra h
    have he : gs = [] := List.length_eq_zero_iff.1 (by omega)
    clear hv
    subst he
    cases hc
  rcases Nat.lt_or_ge (Matrix.of v).rank 2 with hr | hr
  · exact ((C72_cone_new_panics gs v hv hnn hnm hr).of_ok hc).elim
  obtain ⟨h1, h2, h3, ⟨w, hw1, hw2, hw3⟩, h5, -⟩ := (cone_new_spec gs v hv h0 hnn hnm hr).of_ok hc
  refine ⟨h1, h2, ?_, fun f hf => ?_, w, hw1, hw2, fun x => ?_⟩
  · rw [h3, Matrix.rank_eq_finrank_span_row]; rfl
  · obtain ⟨s, hs1, hs2, hs3, x, hx1, hx2, hx3, hx4⟩ := h5 f hf
    exact ⟨s, x, hs1, hs2.trans h3.symm, hs3, hx1, hx2, hx3, hx4⟩
  · rw [hw3, LinearMap.mem_ker, Matrix.mulVecLin_apply, funext_iff]
    exact Iff.rfl

/-- **C72** (the part that holds) `Cone::new` only panics for arithmetic overflow if the generators
span at least a plane. -/
theorem C72_cone_new_partial (hr : 2 ≤ Module.finrank K (Submodule.span K (Set.range v))) :
    Spec (allowed F) (Cone.new gs) (fun _ => True) := by
  have hr' : 2 ≤ (Matrix.of v).rank := by rw [Matrix.rank_eq_finrank_span_row]; exact hr
  have h0 : 0 < gs.length := by
    have : (Matrix.of v).rank ≤ gs.length := by simpa using (Matrix.of v).rank_le_height
    omega
  exact (cone_new_spec gs v hv h0 hnn hnm hr').imp fun _ _ => trivial

/-- **C77** (the part that holds) For a full-dimensional cone, if `dim - 1` linearly independent
generators lie on a hyperplane with all generators on one side and the *first generator not on it*,
then `Cone::new` records them as a facet. -/
theorem C77_cone_complete_partial (c : Cone F) (hc : Cone.new gs = .ok c) (hm : c.dim = m)
    (sub : List (Mat F)) (s : Fin sub.length ↪o Fin gs.length) (hs : ∀ i, sub.get i = gs.get (s i))
    (hl : sub.length + 1 = m) (hli : LinearIndependent K (fun i => v (s i))) (w : Fin m → K)
    (hw : ∀ i, v (s i) ⬝ᵥ w = 0) (hall : ∀ i, 0 ≤ v i ⬝ᵥ w) (hpos : 0 < v ⟨0, h0⟩ ⬝ᵥ w) :
    ∃ f ∈ c.facets, f.generators = sub := by
  rcases Nat.lt_or_ge (Matrix.of v).rank 2 with hr | hr
  · exact ((C72_cone_new_panics gs v hv hnn hnm hr).of_ok hc).elim
  obtain ⟨-, -, h3, -, -, h6⟩ := (cone_new_spec gs v hv h0 hnn hnm hr).of_ok hc
  exact h6 (h3.symm.trans hm) sub s hs hl hli w hw hall hpos

/-- **C78** (the part that holds) For a full-dimensional cone the normal of every recorded facet is
positive on some generator: the facet is a proper face. -/
theorem C78_cone_proper_partial (c : Cone F) (hc : Cone.new gs = .ok c) (hm : c.dim = m)
    (f : Face F) (hf : f ∈ c.facets) (x : Fin m → K) (hx : f.normal.RepresentsVec x) :
    ∃ i, 0 < v i ⬝ᵥ x := by
  obtain ⟨-, -, h3, h4, -⟩ := C71_cone gs v hv hnn hnm c hc
  obtain ⟨s, x', -, -, -, hx', hne, hall, -⟩ := h4 f hf
  have hxx : x = x' := by
    have := hx.unique hx'
    ext i
    exact congrFun (congrFun this i) 0
  subst hxx
  by_contra h
  push Not at h
  have hz : ∀ i, v i ⬝ᵥ x = 0 := fun i => le_antisymm (h i) (hall i)
  have hker : x ∈ LinearMap.ker (Matrix.of v).mulVecLin := by
    rw [LinearMap.mem_ker, Matrix.mulVecLin_apply]
    exact funext hz
  have hfr := finrank_ker (Matrix.of v)
  have hrk : (Matrix.of v).rank = m := by
    exact (Matrix.rank_eq_finrank_span_row _).trans (h3.symm.trans hm)
  have : Module.finrank K (LinearMap.ker (Matrix.of v).mulVecLin) = 0 := by omega
  rw [Submodule.finrank_eq_zero] at this
  rw [this] at hker
  exact hne ((Submodule.mem_bot K).1 hker)

end

/-! ### Refutations and instances -/

section examples
attribute [local instance] Rational.lawful

/-- **C72** fails: a single nonzero generator (a ray), and a zero generator. -/
theorem C72_refuted : letI := Rational.field .debug
    letI := Rational.stability .debug
    letI := Rational.fieldOrd .debug
    Cone.new [ratMat 2 1 [1, 0]] = .panic .indexOutOfBounds ∧
    Cone.new [ratMat 2 1 [0, 0]] = .panic .overflowUsize ∧
    Cone.new ([] : List (Mat Rational)) = .panic .indexOutOfBounds := by
  refine ⟨?_, ?_, ?_⟩ <;> decide +kernel

/-- **C77** fails when the first generator lies on the facet: the cone of `e₁` and `-e₂` has the facet
`{e₁}` (inner normal `-e₂`), but only `{-e₂}` is recorded. -/
theorem C77_refuted : letI := Rational.field .debug
    letI := Rational.stability .debug
    letI := Rational.fieldOrd .debug
    (fun c => (c.dim, c.facets.map Face.generators)) <$> Cone.new [ratMat 2 1 [1, 0], ratMat 2 1 [0, -1]] =
      .ok (2, [[ratMat 2 1 [0, -1]]]) ∧
    ![(1 : ℚ), 0] ⬝ᵥ ![0, -1] = 0 ∧ 0 < ![(0 : ℚ), -1] ⬝ᵥ ![0, -1] :=
  ⟨by decide +kernel, by simp, by simp⟩

/-- **C78** fails when the cone is not full-dimensional: for the cone of `e₂` and `e₃` in dimension 3
the normal of both recorded facets is `e₁`, which vanishes on the whole cone. -/
theorem C78_refuted : letI := Rational.field .debug
    letI := Rational.stability .debug
    letI := Rational.fieldOrd .debug
    (fun c => (c.dim, c.facets.map Face.normal)) <$>
        Cone.new [ratMat 3 1 [0, 1, 0], ratMat 3 1 [0, 0, 1]] =
      .ok (2, [ratMat 3 1 [1, 0, 0], ratMat 3 1 [1, 0, 0]]) := by decide +kernel

/-- A cone on which `C71_cone`, `C77_cone_complete_partial` and `C78_cone_proper_partial` say
something. -/
example : letI := Rational.field .debug
    letI := Rational.stability .debug
    letI := Rational.fieldOrd .debug
    (fun c => (c.dim, c.facets.map Face.generators, c.facets.map Face.normal)) <$>
        Cone.new [ratMat 2 1 [1, 1], ratMat 2 1 [1, 0], ratMat 2 1 [0, 1]] =
      .ok (2, [[ratMat 2 1 [1, 0]], [ratMat 2 1 [0, 1]]], [ratMat 2 1 [0, 1], ratMat 2 1 [1, 0]]) := by
  decide +kernel

end examples
end Verif
