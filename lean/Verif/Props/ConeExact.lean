import Mathlib.Data.List.Sort
import Mathlib.Order.Lex
import Verif.Proofs.Farkas
import Verif.Props.Cone
import Verif.Props.Solve

/-!
# Properties C114 and C115: exactly which facets `Cone::new` records

`F` is a coefficient type implementing a linearly ordered field `K` (`Rational` with `K = ℚ`).
-/

set_option linter.unusedSectionVars false

namespace Verif
open Res LawfulRField LinAlg Matrix

/-! ### Combinations of positions -/

theorem combinationsList_map {α β : Type} (g : α → β) (k : ℕ) (l : List α) :
    combinationsList k (l.map g) = (combinationsList k l).map (List.map g) := by
  induction l generalizing k with
  | nil => cases k <;> rfl
  | cons a l ih =>
    cases k with
    | zero => rfl
    | succ k =>
      simp only [List.map_cons, combinationsList, ih, List.map_append, List.map_map]
      rfl

theorem combinationsList_lex {α : Type} [LinearOrder α] (k : ℕ) (l : List α) (hl : l.Pairwise (· < ·)) :
    (combinationsList k l).Pairwise (· < ·) := by
  induction l generalizing k with
  | nil => cases k <;> simp [combinationsList]
  | cons a l ih =>
    cases k with
    | zero => simp [combinationsList]
    | succ k =>
      rw [List.pairwise_cons] at hl
      simp only [combinationsList, List.pairwise_append, List.pairwise_map]
      refine ⟨(ih k hl.2).imp fun h => List.cons_lt_cons_iff.mpr (Or.inr ⟨rfl, h⟩), ih _ hl.2, ?_⟩
      intro s hs t ht
      obtain ⟨s, -, rfl⟩ := List.mem_map.mp hs
      obtain ⟨hsub, hlen⟩ := mem_combinationsList.mp ht
      cases t with
      | nil => simp at hlen
      | cons b t => exact List.cons_lt_cons_iff.mpr (Or.inl (hl.1 b (hsub.subset (by simp))))

theorem sublist_finRange {n : ℕ} {l : List (Fin n)} : l.Sublist (List.finRange n) ↔ l.Pairwise (· < ·) := by
  constructor
  · intro h
    exact (List.pairwise_lt_finRange n).sublist h
  · intro h
    have hnd : l.Nodup := h.imp fun h => h.ne
    exact List.sublist_of_subperm_of_pairwise (hnd.subperm fun a _ => List.mem_finRange a) h
      (List.pairwise_lt_finRange n)

/-! ### Normals -/

section normals
variable {K : Type} [Field K] {m : ℕ}

/-- `x` is the vector orthogonal to all of `S` whose last nonzero entry is a one and comes as early as
possible. -/
def IsNormal (S : Set (Fin m → K)) (x : Fin m → K) : Prop :=
  (∀ s ∈ S, s ⬝ᵥ x = 0) ∧ ∃ c, x c = 1 ∧ (∀ j, c < j → x j = 0) ∧
    ∀ y, (∀ s ∈ S, s ⬝ᵥ y = 0) → y ≠ 0 → ∃ j, c ≤ j ∧ y j ≠ 0

theorem IsNormal.unique {S : Set (Fin m → K)} {x x' : Fin m → K} (h : IsNormal S x)
    (h' : IsNormal S x') : x = x' := by
  obtain ⟨ho, c, hc1, hc0, hmin⟩ := h
  obtain ⟨ho', c', hc1', hc0', hmin'⟩ := h'
  have hne : x ≠ 0 := fun e => by rw [e] at hc1; exact zero_ne_one hc1
  have hne' : x' ≠ 0 := fun e => by rw [e] at hc1'; exact zero_ne_one hc1'
  have hcc : c = c' := by
    obtain ⟨j, hj, hj0⟩ := hmin' x ho hne
    obtain ⟨j', hj', hj0'⟩ := hmin x' ho' hne'
    exact le_antisymm (hj'.trans (not_lt.mp fun h => hj0' (hc0' _ h)))
      (hj.trans (not_lt.mp fun h => hj0 (hc0 _ h)))
  subst hcc
  by_contra hx
  obtain ⟨j, hj, hj0⟩ := hmin (x - x')
    (fun s hs => by rw [dotProduct_sub, ho s hs, ho' s hs, sub_zero]) (sub_ne_zero.mpr hx)
  apply hj0
  rw [Pi.sub_apply]
  rcases hj.eq_or_lt with rfl | h
  · rw [hc1, hc1', sub_self]
  · rw [hc0 j h, hc0' j h, sub_self]

/-- The vectors orthogonal to `m - 1` independent ones are multiples of one of them. -/
theorem orthogonal_unique (S : Submodule K (Fin m → K)) (hS : Module.finrank K S + 1 = m)
    {x y : Fin m → K} (hx0 : x ≠ 0) (hx : ∀ s ∈ S, s ⬝ᵥ x = 0) (hy : ∀ s ∈ S, s ⬝ᵥ y = 0) :
    ∃ a : K, y = a • x := by
  have hd := Subspace.finrank_add_finrank_dualAnnihilator_eq S
  rw [Module.finrank_fin_fun] at hd
  have h1 : Module.finrank K S.dualAnnihilator = 1 := by omega
  have hmem : ∀ z : Fin m → K, (∀ s ∈ S, s ⬝ᵥ z = 0) → dotProductEquiv K (Fin m) z ∈ S.dualAnnihilator := by
    intro z hz
    rw [Submodule.mem_dualAnnihilator]
    intro s hs
    have := hz s hs
    rw [dotProduct_comm] at this
    simpa [dotProductEquiv] using this
  have hne : (⟨_, hmem x hx⟩ : S.dualAnnihilator) ≠ 0 := by
    intro h
    have := congrArg Subtype.val h
    exact hx0 ((dotProductEquiv K (Fin m)).map_eq_zero_iff.mp this)
  obtain ⟨a, ha⟩ := exists_smul_eq_of_finrank_eq_one (V := S.dualAnnihilator) h1 hne ⟨_, hmem y hy⟩
  refine ⟨a, ?_⟩
  have := congrArg Subtype.val ha
  change a • dotProductEquiv K (Fin m) x = dotProductEquiv K (Fin m) y at this
  rw [← map_smul] at this
  exact ((dotProductEquiv K (Fin m)).injective this).symm

/-- The last nonzero entry. -/
theorem exists_last {x : Fin m → K} (hx : x ≠ 0) : ∃ c, x c ≠ 0 ∧ ∀ j, c < j → x j = 0 := by
  obtain ⟨j₀, hj₀⟩ : ∃ j, x j ≠ 0 := by
    by_contra hall
    push Not at hall
    exact hx (funext hall)
  obtain ⟨j, hj, hmax⟩ := Set.exists_max_image {j : Fin m | x j ≠ 0} id (Set.toFinite _) ⟨j₀, hj₀⟩
  exact ⟨j, hj, fun l hl => by
    by_contra hne
    exact absurd (hmax l hne) (not_le.mpr hl)⟩

/-- On a hyperplane the normal is any orthogonal vector scaled. -/
theorem IsNormal.of_hyperplane {S : Set (Fin m → K)} (hS : Module.finrank K (Submodule.span K S) + 1 = m)
    {x : Fin m → K} (hx : ∀ s ∈ S, s ⬝ᵥ x = 0) {c : Fin m} (hc : x c ≠ 0) (hlast : ∀ j, c < j → x j = 0) :
    IsNormal S ((x c)⁻¹ • x) := by
  have hspan : ∀ z : Fin m → K, (∀ s ∈ S, s ⬝ᵥ z = 0) → ∀ s ∈ Submodule.span K S, s ⬝ᵥ z = 0 := by
    intro z hz s hs
    induction hs using Submodule.span_induction with
    | mem s hs => exact hz s hs
    | zero => exact zero_dotProduct _
    | add s t _ _ hs ht => rw [add_dotProduct, hs, ht, add_zero]
    | smul a s _ hs => rw [smul_dotProduct, hs, smul_zero]
  have hx0 : x ≠ 0 := fun e => hc (by rw [e]; rfl)
  refine ⟨fun s hs => by rw [dotProduct_smul, hx s hs, smul_zero], c, ?_, fun j hj => ?_, fun y hy hy0 => ?_⟩
  · rw [Pi.smul_apply, smul_eq_mul, inv_mul_cancel₀ hc]
  · rw [Pi.smul_apply, hlast j hj, smul_zero]
  · obtain ⟨a, rfl⟩ := orthogonal_unique _ hS hx0 (hspan x hx) (hspan y hy)
    refine ⟨c, le_rfl, ?_⟩
    rw [Pi.smul_apply, smul_eq_mul]
    refine mul_ne_zero (fun ha => hy0 ?_) hc
    rw [ha, zero_smul]

/-- Positions of a basis of a span. -/
theorem exists_positions {n : ℕ} (v : Fin n → Fin m → K) (T : Set (Fin n)) :
    ∃ l : List (Fin n), l.Pairwise (· < ·) ∧ (∀ i ∈ l, i ∈ T) ∧
      LinearIndependent K (fun i : Fin l.length => v (l.get i)) ∧
      Submodule.span K (v '' {i | i ∈ l}) = Submodule.span K (v '' T) ∧
      l.length = Module.finrank K (Submodule.span K (v '' T)) := by
  classical
  obtain ⟨κ, a, ha, hspan, hli⟩ := exists_linearIndependent' K (fun i : T => v i)
  have hfin : Finite κ := Finite.of_injective a ha
  have := Fintype.ofFinite κ
  let g : κ → Fin n := fun q => (a q : Fin n)
  have hg : Function.Injective g := fun q q' e => ha (Subtype.ext e)
  have hli : LinearIndependent K (v ∘ g) := hli
  obtain ⟨l, hl⟩ : ∃ l, l = (Finset.univ.image g).sort (· ≤ ·) := ⟨_, rfl⟩
  have hmem : ∀ i, i ∈ l ↔ ∃ q, g q = i := fun i => by simp [hl]
  have hpw : l.Pairwise (· < ·) := by rw [hl]; exact (Finset.sortedLT_sort _).pairwise
  have hnd : l.Nodup := hpw.imp fun h => h.ne
  have hex : ∀ i : Fin l.length, ∃ q, g q = l.get i := fun i => (hmem _).mp (List.get_mem _ _)
  choose e he using hex
  have hLI : LinearIndependent K (fun i : Fin l.length => v (l.get i)) := by
    have : (fun i : Fin l.length => v (l.get i)) = (v ∘ g) ∘ e := by
      funext i; simp only [Function.comp_apply, he]
    rw [this]
    refine hli.comp e fun i j hij => ?_
    exact List.nodup_iff_injective_get.mp hnd (by rw [← he, ← he, hij])
  have himg : v '' {i | i ∈ l} = Set.range (v ∘ g) := by
    ext y
    constructor
    · rintro ⟨i, hi, rfl⟩
      obtain ⟨q, rfl⟩ := (hmem i).mp hi
      exact ⟨q, rfl⟩
    · rintro ⟨q, rfl⟩
      exact ⟨g q, (hmem _).mpr ⟨q, rfl⟩, rfl⟩
  have hT : Submodule.span K (v '' {i | i ∈ l}) = Submodule.span K (v '' T) := by
    rw [himg, show Set.range (v ∘ g) = Set.range ((fun i : T => v i) ∘ a) from rfl, hspan]
    congr 1
    rw [Set.image_eq_range]
  refine ⟨l, hpw, fun i hi => ?_, hLI, hT, ?_⟩
  · obtain ⟨q, rfl⟩ := (hmem i).mp hi
    exact (a q).2
  · have hr : Set.range (fun i : Fin l.length => v (l.get i)) = v '' {i | i ∈ l} := by
      ext y
      constructor
      · rintro ⟨i, rfl⟩
        exact ⟨_, List.get_mem _ _, rfl⟩
      · rintro ⟨i, hi, rfl⟩
        obtain ⟨q, rfl⟩ := List.get_of_mem hi
        exact ⟨q, rfl⟩
    rw [← hT, ← hr, finrank_span_eq_card hLI, Fintype.card_fin]

variable [LinearOrder K] {n : ℕ}

/-- `x` is the normal recorded for the generators at the positions `l`, if they make a facet. -/
def FacetNormal (v : Fin n → Fin m → K) (l : List (Fin n)) (x : Fin m → K) : Prop :=
  LinearIndependent K (fun i : Fin l.length => v (l.get i)) ∧ (∀ i, 0 ≤ v i ⬝ᵥ x) ∧
    ∃ (h0 : 0 < n) (y : Fin m → K), IsNormal (v '' {i | i ∈ l}) y ∧
      (x = y ∧ 0 ≤ v ⟨0, h0⟩ ⬝ᵥ y ∨ x = -y ∧ v ⟨0, h0⟩ ⬝ᵥ y < 0)

theorem FacetNormal.unique {v : Fin n → Fin m → K} {l : List (Fin n)} {x x' : Fin m → K}
    (h : FacetNormal v l x) (h' : FacetNormal v l x') : x = x' := by
  obtain ⟨-, -, h0, y, hy, hx⟩ := h
  obtain ⟨-, -, _, y', hy', hx'⟩ := h'
  obtain rfl := hy.unique hy'
  rcases hx with ⟨rfl, h⟩ | ⟨rfl, h⟩ <;> rcases hx' with ⟨rfl, h'⟩ | ⟨rfl, h'⟩
  · rfl
  · exact absurd h' (not_lt.mpr h)
  · exact absurd h (not_lt.mpr h')
  · rfl

end normals

variable {F : Type} [RField F] {K : Type} [Field K] [LawfulRField F K] [EpsilonEquality F]
  [StabilityCmp F] [LawfulPivot F K]

theorem Mat.RepresentsVec.vec_unique {m : ℕ} {M : Mat F} {x y : Fin m → K} (hx : M.RepresentsVec x)
    (hy : M.RepresentsVec y) : x = y := by
  have := hx.unique hy
  ext i
  exact congrFun (congrFun this i) 0

/-- Rank and first kernel vector, from one reduced row echelon form. -/
theorem rref_rank_normal {n m : ℕ} (M : Mat F) (A : Matrix (Fin n) (Fin m) K) (hM : M.Represents A)
    (hn : n * n < 18446744073709551616) : Spec (allowed F) (rref M) (fun f =>
      Spec (allowed F) f.rank (fun r => r = A.rank) ∧
      Spec (allowed F) f.computeKernel (fun ks => ks.length + A.rank = m ∧
        ∀ h : 0 < ks.length, ∃ x : Fin m → K, ks[0].RepresentsVec x ∧ IsNormal (Set.range A.row) x)) := by
  refine (rref_spec M A hM hn).imp fun f ⟨b, k, piv, hf, he⟩ => ?_
  obtain ⟨p, _, hu, hpa⟩ := hf.p_is
  rw [mat_matExt] at hpa
  have hrk : A.rank = k := by
    have h := he.toEch.rank_eq
    rwa [← hpa, rank_of_unit hu] at h
  constructor
  · exact (hf.rank he.toEch).imp fun r hr => by rw [hr, hrk]
  · refine (hf.kernel_form he).imp ?_
    rintro ks ⟨hl, c, v, hv, hmono, hker, hone, hz, hafter, hcol⟩
    have hkm : A.rank ≤ m := A.rank_le_width
    refine ⟨by omega, fun h => ⟨v ⟨0, h⟩, hv ⟨0, h⟩, ?_, c ⟨0, h⟩, hone _, hafter _, fun y hy hy0 => ?_⟩⟩
    · rintro _ ⟨i, rfl⟩
      exact congrFun (hker ⟨0, h⟩) i
    -- the last nonzero entry of `y`
    obtain ⟨j₀, hj₀⟩ : ∃ j, y j ≠ 0 := by
      by_contra hall
      push Not at hall
      exact hy0 (funext hall)
    obtain ⟨j, hj, hmax⟩ := Set.exists_max_image {j : Fin m | y j ≠ 0} id (Set.toFinite _) ⟨j₀, hj₀⟩
    have hj : y j ≠ 0 := hj
    have hlast : ∀ l, j < l → y l = 0 := fun l hl => by
      by_contra hne
      exact absurd (hmax l hne) (not_le.mpr hl)
    refine ⟨j, ?_, hj⟩
    obtain ⟨i, rfl⟩ := (hcol j).mpr (by
      have hAy : A.mulVec y = 0 := funext fun i => hy _ ⟨i, rfl⟩
      have hsum : ∑ l, y l • A.col l = 0 := by
        funext i
        have := congrFun hAy i
        rw [Matrix.mulVec, dotProduct] at this
        rw [Finset.sum_apply, ← this]
        exact Finset.sum_congr rfl fun l _ => by
          rw [Pi.smul_apply, smul_eq_mul, mul_comm]; rfl
      rw [← Finset.add_sum_erase _ _ (Finset.mem_univ j)] at hsum
      have hc : A.col j = -((y j)⁻¹ • ∑ l ∈ Finset.univ.erase j, y l • A.col l) := by
        rw [eq_comm, neg_eq_iff_eq_neg, ← smul_right_injective _ hj |>.eq_iff]
        simp only [smul_smul, mul_inv_cancel₀ hj, one_smul, smul_neg]
        exact (eq_neg_of_add_eq_zero_right hsum)
      rw [hc]
      refine Submodule.neg_mem _ (Submodule.smul_mem _ _ (Submodule.sum_mem _ fun l hl => ?_))
      rcases lt_or_ge l j with h' | h'
      · exact Submodule.smul_mem _ _ (Submodule.subset_span ⟨l, h', rfl⟩)
      · rw [hlast l (lt_of_le_of_ne h' (Finset.ne_of_mem_erase hl).symm), zero_smul]
        exact Submodule.zero_mem _)
    exact hmono.monotone (Fin.mk_le_of_le_val (Nat.zero_le _))

variable [LinearOrder K] [IsStrictOrderedRing K] [FieldOrd F] [LawfulOrd F K]

/-- What `facetOf` returns for the generators at the positions `l`. -/
theorem facetOf_exact {m k : ℕ} (gs : List (Mat F)) (v : Fin gs.length → Fin m → K)
    (hv : ∀ i, (gs.get i).RepresentsVec (v i)) (h0 : 0 < gs.length)
    (hnn : gs.length * gs.length < 18446744073709551616)
    (hnm : gs.length * m < 18446744073709551616)
    (hk0 : k ≠ 0) (hkm : k < m) (l : List (Fin gs.length)) (hnd : l.Nodup) (hk : l.length = k) :
    Spec (allowed F) (Cone.facetOf gs k (l.map gs.get)) (fun o =>
      (∀ f, o = some f → f.generators = l.map gs.get ∧
        ∃ x : Fin m → K, f.normal.RepresentsVec x ∧ FacetNormal v l x) ∧
      (o = none → ¬ ∃ x, FacetNormal v l x)) := by
  obtain ⟨sub, hsubdef⟩ : ∃ sub, sub = l.map gs.get := ⟨_, rfl⟩
  have hlen : sub.length = l.length := by rw [hsubdef, List.length_map]
  have hle : sub.length ≤ gs.length := by
    rw [hlen]
    simpa using hnd.length_le_card
  have hsub : ∀ i : Fin sub.length, (sub.get i).RepresentsVec (v (l.get (i.cast hlen))) := fun i => by
    subst hsubdef
    have : (l.map gs.get).get i = gs.get (l.get (i.cast hlen)) := by simp
    rw [this]; exact hv _
  have hne : sub ≠ [] := by
    intro h
    rw [h] at hlen
    exact hk0 (hk ▸ hlen.symm)
  rw [← hsubdef]
  unfold Cone.facetOf
  have hlt : gs.length < 18446744073709551616 := by nlinarith
  refine ((C51_from_row_vectors m sub _ hne hsub (by omega)
    (lt_of_le_of_lt (Nat.mul_le_mul_right _ hle) hnm)).mono (fun _ h => h.elim) fun _ h => h).bind
    fun sm hsm => ?_
  obtain ⟨A, hA⟩ : ∃ A : Matrix (Fin sub.length) (Fin m) K, A = Matrix.of fun i => v (l.get (i.cast hlen)) :=
    ⟨_, rfl⟩
  rw [← hA] at hsm
  have hrr := rref_rank_normal sm A hsm (lt_of_le_of_lt (Nat.mul_le_mul hle hle) hnn)
  unfold rref at hrr
  rw [spec_bind] at hrr
  refine hrr.bind fun form hform => hform.bind fun f hf => ?_
  obtain ⟨hrank, hker⟩ := hf
  refine hrank.bind fun r hr => ?_
  subst hr
  -- linear independence of the subset
  have hLI : LinearIndependent K (fun i : Fin l.length => v (l.get i)) ↔ A.rank = k := by
    rw [← linearIndependent_equiv (finCongr hlen)]
    have : LinearIndependent K ((fun i : Fin l.length => v (l.get i)) ∘ finCongr hlen) ↔
        LinearIndependent K A.row := by rw [hA]; exact Iff.rfl
    rw [this, Matrix.rank_eq_finrank_span_row, linearIndependent_iff_card_eq_finrank_span]
    simp [Set.finrank, eq_comm, hlen, hk]
  have hrange : Set.range A.row = v '' {i | i ∈ l} := by
    ext y
    constructor
    · rintro ⟨i, rfl⟩
      exact ⟨l.get (i.cast hlen), List.get_mem _ _, by rw [hA]; rfl⟩
    · rintro ⟨i, hi, rfl⟩
      obtain ⟨q, rfl⟩ := List.get_of_mem hi
      exact ⟨q.cast hlen.symm, by rw [hA]; rfl⟩
  split
  · next h =>
    refine ⟨fun f hf => (by cases hf), fun _ => ?_⟩
    rintro ⟨x, hli, -⟩
    exact h (hLI.1 hli)
  next hrk =>
  have hrk : A.rank = k := by simpa using hrk
  have hli := hLI.2 hrk
  refine hker.bind fun ks hks => ?_
  obtain ⟨hdim, hx⟩ := hks
  have hpos : 0 < ks.length := by omega
  obtain ⟨x, hx0, hxn⟩ := hx hpos
  rw [hrange] at hxn
  rw [show Mat.nth ks 0 = .ok ks[0] by unfold Mat.nth; rw [List.getElem?_eq_getElem hpos], bind_ok,
    show Mat.nth gs 0 = .ok gs[0] by unfold Mat.nth; rw [List.getElem?_eq_getElem h0], bind_ok]
  refine (C56_dot gs[0] ks[0] (v ⟨0, h0⟩) x (hv ⟨0, h0⟩) hx0).bind fun d hd => ?_
  refine (LawfulOrd.cmp_spec (K := K) d RField.zero hd.1 wf_zero).bind fun o ho => ?_
  rw [hd.2, val_zero] at ho
  subst ho
  dsimp only
  -- the rest of the loop body, with the reoriented normal
  have hrest : ∀ (nm : Mat F) (y : Fin m → K), nm.RepresentsVec y →
      (y = x ∧ 0 ≤ v ⟨0, h0⟩ ⬝ᵥ x ∨ y = -x ∧ v ⟨0, h0⟩ ⬝ᵥ x < 0) →
      Spec (allowed F) (do
        if ← Cone.allAbove nm gs then pure (some (⟨nm, sub⟩ : Face F)) else pure none) (fun o =>
      (∀ f, o = some f → f.generators = sub ∧
        ∃ x : Fin m → K, f.normal.RepresentsVec x ∧ FacetNormal v l x) ∧
      (o = none → ¬ ∃ x, FacetNormal v l x)) := by
    intro nm y hy hyx
    refine (allAbove_spec nm y hy gs v hv).bind fun b hb => ?_
    cases b with
    | true =>
      refine ⟨fun f hf => ?_, fun h => (by cases h)⟩
      cases hf
      exact ⟨rfl, y, hy, hli, hb.1 rfl, h0, x, hxn, hyx⟩
    | false =>
      refine ⟨fun f hf => (by cases hf), fun _ => ?_⟩
      rintro ⟨w, -, hw, _, u, hu, hwu⟩
      obtain rfl := hu.unique hxn
      have hb' : ¬ ∀ i, 0 ≤ v i ⬝ᵥ y := fun h => (by cases hb.2 h)
      apply hb'
      rcases hwu with ⟨rfl, h⟩ | ⟨rfl, h⟩ <;> rcases hyx with ⟨rfl, h'⟩ | ⟨rfl, h'⟩
      · exact hw
      · exact absurd h' (not_lt.mpr h)
      · exact absurd h (not_lt.mpr h')
      · exact hw
  rcases lt_trichotomy (v ⟨0, h0⟩ ⬝ᵥ x) 0 with h | h | h
  · rw [compare_lt_iff_lt.2 h]
    refine (sub_spec (K := K) RField.zero RField.one wf_zero wf_one).bind fun c hc => ?_
    have hcv : val c = (-1 : K) := by rw [hc.2, val_zero, val_one]; ring
    refine (C52_smul ks[0] _ hx0 c hc.1).2.bind fun R hR => hrest R (-x) ?_ (Or.inr ⟨rfl, h⟩)
    rw [hcv] at hR
    unfold Mat.RepresentsVec
    convert hR using 1
    ext i j
    simp
  · rw [compare_eq_iff_eq.2 h]
    exact hrest _ x hx0 (Or.inl ⟨rfl, h.ge⟩)
  · rw [compare_gt_iff_gt.2 h]
    exact hrest _ x hx0 (Or.inl ⟨rfl, h.le⟩)

section
variable {m : ℕ} (gs : List (Mat F)) (v : Fin gs.length → Fin m → K)
  (hv : ∀ i, (gs.get i).RepresentsVec (v i)) (h0 : 0 < gs.length)
  (hnn : gs.length * gs.length < 18446744073709551616)
  (hnm : gs.length * m < 18446744073709551616)
include hv hnn hnm

/-- **C114** The facets `Cone::new` records are, in lexicographic order of the positions and each once,
the sets of `dim - 1` linearly independent generators for which the following vector is nonnegative on
all generators: the vector orthogonal to them whose last nonzero entry is a one and comes as early as
possible, negated if it is negative on the first generator.  That vector is the recorded normal. -/
theorem C114_cone_facets (c : Cone F) (hc : Cone.new gs = .ok c) :
    ∃ S : List (List (Fin gs.length)), S.Pairwise (· < ·) ∧
      (∀ l, l ∈ S ↔ l.Pairwise (· < ·) ∧ l.length + 1 = c.dim ∧ ∃ x, FacetNormal v l x) ∧
      List.Forall₂ (fun f l => f.generators = l.map gs.get ∧
        ∃ x : Fin m → K, f.normal.RepresentsVec x ∧ FacetNormal v l x) c.facets S := by
  have h0 : 0 < gs.length := by
    by_contra h
    have he : gs = [] := List.length_eq_zero_iff.1 (by omega)
    clear hv
    subst he
    cases hc
  rcases Nat.lt_or_ge (Matrix.of v).rank 2 with hr | hr
  · exact ((C72_cone_new_panics gs v hv hnn hnm hr).of_ok hc).elim
  have hlt : gs.length < 18446744073709551616 := by nlinarith
  have hrn : (Matrix.of v).rank ≤ gs.length := by simpa using (Matrix.of v).rank_le_height
  have hrm : (Matrix.of v).rank ≤ m := (Matrix.of v).rank_le_width
  have hsmall : gs.length < 1152921504606846976 := by
    by_contra h
    have : 1152921504606846976 * 1152921504606846976 ≤ gs.length * gs.length :=
      Nat.mul_le_mul (by omega) (by omega)
    omega
  refine Spec.of_ok (E := allowed F) (x := Cone.new gs) (P := fun c => ∃ S : List (List (Fin gs.length)),
    S.Pairwise (· < ·) ∧ (∀ l, l ∈ S ↔ l.Pairwise (· < ·) ∧ l.length + 1 = c.dim ∧ ∃ x, FacetNormal v l x) ∧
      List.Forall₂ (fun f l => f.generators = l.map gs.get ∧
        ∃ x : Fin m → K, f.normal.RepresentsVec x ∧ FacetNormal v l x) c.facets S) ?_ hc
  unfold Cone.new
  rw [show Mat.nth gs 0 = .ok gs[0] by unfold Mat.nth; rw [List.getElem?_eq_getElem h0], bind_ok]
  refine ((C51_from_row_vectors m gs v (List.ne_nil_of_length_pos h0) hv hlt hnm).mono
    (fun _ h => h.elim) fun _ h => h).bind fun gm hgm => ?_
  have hrr := rref_rank_kernel gm (Matrix.of v) hgm hnn
  unfold rref at hrr
  rw [spec_bind] at hrr
  refine hrr.bind fun form hform => hform.bind fun f hf => ?_
  obtain ⟨hrank, hker⟩ := hf
  refine hrank.bind fun r hr' => ?_
  subst hr'
  refine hker.bind fun ks hks => ?_
  rw [show Usize.sub (RField.build F) (Matrix.of v).rank 1 = .ok ((Matrix.of v).rank - 1) by
    unfold Usize.sub; rw [if_pos (by omega)], bind_ok]
  obtain ⟨k, hk⟩ : ∃ k, k = (Matrix.of v).rank - 1 := ⟨_, rfl⟩
  rw [← hk]
  rw [show combinations gs k = .ok (combinationsList k gs) by
    unfold combinations; rw [if_neg (by omega)], bind_ok]
  have hcomb : combinationsList k gs = (combinationsList k (List.finRange gs.length)).map (List.map gs.get) := by
    rw [← combinationsList_map]
    congr 1
    simp
  rw [hcomb, List.foldlM_map]
  classical
  refine Spec.bind (P := fun facets => List.Forall₂ (fun f l => f.generators = l.map gs.get ∧
        ∃ x : Fin m → K, f.normal.RepresentsVec x ∧ FacetNormal v l x) facets
      ((combinationsList k (List.finRange gs.length)).filter fun l => ∃ x, FacetNormal v l x))
    ?_ fun facets hfacets => ?_
  · refine (foldlM_spec (fun done (facets : List (Face F)) =>
      List.Forall₂ (fun f l => f.generators = l.map gs.get ∧
        ∃ x : Fin m → K, f.normal.RepresentsVec x ∧ FacetNormal v l x) facets
      (done.filter fun l => ∃ x, FacetNormal v l x)) ?_ ?_)
    · exact List.Forall₂.nil
    · intro done l rest facets heq hinv
      obtain ⟨hsl, hlen⟩ := mem_combinationsList.1
        (heq ▸ (by simp) : l ∈ combinationsList k (List.finRange gs.length))
      refine (facetOf_exact gs v hv h0 hnn hnm (by omega : k ≠ 0) (by omega) l
        ((sublist_finRange.mp hsl).imp fun h => h.ne) hlen).bind fun o ho => ?_
      rw [List.filter_append]
      cases o with
      | none =>
        have := ho.2 rfl
        rw [List.filter_cons_of_neg (by simpa using this), List.filter_nil, List.append_nil]
        exact hinv
      | some f =>
        obtain ⟨h1, x, h2, h3⟩ := ho.1 f rfl
        rw [List.filter_cons_of_pos (by simpa using ⟨x, h3⟩), List.filter_nil]
        exact List.rel_append hinv (List.Forall₂.cons ⟨h1, x, h2, h3⟩ List.Forall₂.nil)
  · refine ⟨_, (combinationsList_lex k _ (List.pairwise_lt_finRange _)).filter _, fun l => ?_, hfacets⟩
    rw [List.mem_filter, mem_combinationsList, sublist_finRange]
    simp only [decide_eq_true_eq]
    constructor
    · rintro ⟨⟨h1, h2⟩, h3⟩
      exact ⟨h1, by omega, h3⟩
    · rintro ⟨h1, h2, h3⟩
      exact ⟨⟨h1, by omega⟩, h3⟩

/-- **C115** For a full-dimensional cone, the cone is the intersection of the recorded half-spaces if and
only if every hyperplane spanned by generators that supports the cone and contains the first generator
has an inner normal whose last nonzero entry is positive. -/
theorem C115_halfspaces (h0 : 0 < gs.length) (c : Cone F) (hc : Cone.new gs = .ok c) (hm : c.dim = m) :
    (∀ b : Fin m → K, (∃ a : Fin gs.length → K, (∀ i, 0 ≤ a i) ∧ b = ∑ i, a i • v i) ↔
        ∀ f ∈ c.facets, ∀ x : Fin m → K, f.normal.RepresentsVec x → 0 ≤ b ⬝ᵥ x) ↔
      ∀ x : Fin m → K, (∀ i, 0 ≤ v i ⬝ᵥ x) →
        Module.finrank K (Submodule.span K (v '' {i | v i ⬝ᵥ x = 0})) + 1 = m → v ⟨0, h0⟩ ⬝ᵥ x = 0 →
        ∃ j, 0 < x j ∧ ∀ j', j < j' → x j' = 0 := by
  obtain ⟨-, -, hdim, hfac, -⟩ := C71_cone gs v hv hnn hnm c hc
  obtain ⟨S, -, hS, hSf⟩ := C114_cone_facets gs v hv hnn hnm c hc
  have htop : Submodule.span K (Set.range v) = ⊤ := by
    apply Submodule.eq_top_of_finrank_eq
    rw [Module.finrank_fin_fun, ← hdim, hm]
  have hne : ∀ x : Fin m → K, Module.finrank K (Submodule.span K (v '' {i | v i ⬝ᵥ x = 0})) + 1 = m → x ≠ 0 := by
    rintro x hx rfl
    rw [show {i | v i ⬝ᵥ (0 : Fin m → K) = 0} = Set.univ by ext; simp, Set.image_univ, htop, finrank_top,
      Module.finrank_fin_fun] at hx
    omega
  constructor
  · -- a supporting hyperplane that is missed
    intro H x hx hr hx0
    obtain ⟨j, hj, hlast⟩ := exists_last (hne x hr)
    refine ⟨j, lt_of_le_of_ne (not_lt.mp fun hneg => ?_) hj.symm, hlast⟩
    -- a point inside the face
    classical
    obtain ⟨p, hp⟩ : ∃ p : Fin m → K, p = ∑ i with v i ⬝ᵥ x = 0, v i := ⟨_, rfl⟩
    have hpx : p ⬝ᵥ x = 0 := by
      rw [hp, sum_dotProduct]
      exact Finset.sum_eq_zero fun i hi => (Finset.mem_filter.mp hi).2
    have hpos : ∀ f ∈ c.facets, ∀ y : Fin m → K, f.normal.RepresentsVec y → 0 < p ⬝ᵥ y := by
      intro f hf y hy
      obtain ⟨l, -, -, y', hy', hfn⟩ : ∃ l ∈ S, f.generators = l.map gs.get ∧
          ∃ x : Fin m → K, f.normal.RepresentsVec x ∧ FacetNormal v l x := by
        obtain ⟨i, hi, rfl⟩ := List.getElem_of_mem hf
        have hl := hSf.length_eq
        exact ⟨S[i], List.getElem_mem _, List.forall₂_iff_get.mp hSf |>.2 i hi (hl ▸ hi)⟩
      obtain rfl := hy.vec_unique hy'
      obtain ⟨hli, hall, _, z, ⟨-, cz, hz1, hz0, -⟩, hyz⟩ := hfn
      have hge : 0 ≤ p ⬝ᵥ y := by
        rw [hp, sum_dotProduct]
        exact Finset.sum_nonneg fun i _ => hall i
      refine lt_of_le_of_ne hge fun heq => ?_
      have hzero : ∀ i, v i ⬝ᵥ x = 0 → v i ⬝ᵥ y = 0 := by
        rw [hp, sum_dotProduct] at heq
        intro i hi
        exact (Finset.sum_eq_zero_iff_of_nonneg fun i _ => hall i).mp heq.symm i (by simp [hi])
      obtain ⟨a, ha⟩ := orthogonal_unique (tight v x) hr (hne x hr) (fun s hs => tight_orthogonal v x hs) (y := y)
        (by
          intro s hs
          unfold tight at hs
          induction hs using Submodule.span_induction with
          | mem s hs => obtain ⟨i, hi, rfl⟩ := hs; exact hzero i hi
          | zero => exact zero_dotProduct _
          | add s t _ _ hs ht => rw [add_dotProduct, hs, ht, add_zero]
          | smul a s _ hs => rw [smul_dotProduct, hs, smul_zero])
      have hy0 : v ⟨0, h0⟩ ⬝ᵥ y = 0 := hzero _ hx0
      obtain rfl : y = z := by
        rcases hyz with ⟨h, -⟩ | ⟨h, h'⟩
        · exact h
        · rw [h, dotProduct_neg, neg_eq_zero] at hy0
          exact absurd hy0 h'.ne
      -- `y = a x` with `a > 0`, but the last entries have different signs
      have hane : a ≠ 0 := by
        rintro rfl
        rw [ha, zero_smul] at hz1
        exact zero_ne_one hz1
      obtain ⟨i, hi⟩ : ∃ i, v i ⬝ᵥ x ≠ 0 := by
        by_contra hcon
        push Not at hcon
        refine hne x hr ?_
        have : x ∈ Submodule.span K (Set.range v) := htop ▸ Submodule.mem_top
        have hz : ∀ s ∈ Submodule.span K (Set.range v), s ⬝ᵥ x = 0 := by
          intro s hs
          induction hs using Submodule.span_induction with
          | mem s hs => obtain ⟨i, rfl⟩ := hs; exact hcon i
          | zero => exact zero_dotProduct _
          | add s t _ _ hs ht => rw [add_dotProduct, hs, ht, add_zero]
          | smul a s _ hs => rw [smul_dotProduct, hs, smul_zero]
        exact dotProduct_self_eq_zero.mp (hz x this)
      have hapos : 0 < a := by
        have h1 := hall i
        rw [ha, dotProduct_smul, smul_eq_mul] at h1
        have h2 : 0 < v i ⬝ᵥ x := lt_of_le_of_ne (hx i) hi.symm
        exact lt_of_le_of_ne (nonneg_of_mul_nonneg_left h1 h2) hane.symm
      have hcj : cz = j := by
        rcases lt_trichotomy cz j with h | h | h
        · have := hz0 j h
          rw [ha, Pi.smul_apply, smul_eq_mul] at this
          exact absurd this (mul_ne_zero hane hj)
        · exact h
        · rw [ha, Pi.smul_apply, hlast _ h, smul_zero] at hz1
          exact absurd hz1 zero_ne_one
      rw [hcj, ha, Pi.smul_apply, smul_eq_mul] at hz1
      have := mul_neg_of_pos_of_neg hapos hneg
      rw [hz1] at this
      exact absurd this (not_lt.mpr zero_le_one)
    -- move out of the cone a little
    have hex : ∀ fs : List (Face F), (∀ f ∈ fs, f ∈ c.facets) → ∃ ε : K, 0 < ε ∧ ∀ f ∈ fs, ∀ y : Fin m → K,
        f.normal.RepresentsVec y → ∀ δ, 0 ≤ δ → δ ≤ ε → 0 ≤ (p - δ • x) ⬝ᵥ y := by
      intro fs
      induction fs with
      | nil => exact fun _ => ⟨1, one_pos, fun f hf => by cases hf⟩
      | cons f fs ih =>
        intro hfs
        obtain ⟨ε, hε, hall⟩ := ih fun f hf => hfs f (by simp [hf])
        obtain ⟨_, y, -, -, -, hy, -⟩ := hfac f (hfs f (by simp))
        have hpy := hpos f (hfs f (by simp)) y hy
        obtain ⟨ε', hε', hall'⟩ : ∃ ε' : K, 0 < ε' ∧ ∀ δ, 0 ≤ δ → δ ≤ ε' → 0 ≤ (p - δ • x) ⬝ᵥ y := by
          rcases le_or_gt (x ⬝ᵥ y) 0 with h | h
          · refine ⟨1, one_pos, fun δ hδ _ => ?_⟩
            rw [sub_dotProduct, smul_dotProduct, smul_eq_mul]
            have := mul_nonpos_of_nonneg_of_nonpos hδ h
            linarith
          · refine ⟨p ⬝ᵥ y / x ⬝ᵥ y, div_pos hpy h, fun δ hδ hle => ?_⟩
            rw [le_div_iff₀ h] at hle
            rw [sub_dotProduct, smul_dotProduct, smul_eq_mul]
            linarith
        refine ⟨min ε ε', lt_min hε hε', fun g hg z hz δ h1 h2 => ?_⟩
        rcases List.mem_cons.mp hg with rfl | hg
        · obtain rfl := hz.vec_unique hy
          exact hall' δ h1 (h2.trans (min_le_right _ _))
        · exact hall g hg z hz δ h1 (h2.trans (min_le_left _ _))
    obtain ⟨ε, hε, hall⟩ := hex c.facets fun _ h => h
    obtain ⟨a, ha, hb⟩ := (H (p - ε • x)).mpr fun f hf y hy => hall f hf y hy ε hε.le le_rfl
    have hge : 0 ≤ (p - ε • x) ⬝ᵥ x := by
      rw [hb, sum_dotProduct]
      exact Finset.sum_nonneg fun i _ => by
        rw [smul_dotProduct, smul_eq_mul]; exact mul_nonneg (ha i) (hx i)
    rw [sub_dotProduct, smul_dotProduct, smul_eq_mul, hpx, zero_sub] at hge
    have hxx : 0 < x ⬝ᵥ x := by
      refine lt_of_le_of_ne (Finset.sum_nonneg fun i _ => mul_self_nonneg _) fun e => ?_
      exact hne x hr (dotProduct_self_eq_zero.mp e.symm)
    have := mul_pos hε hxx
    linarith
  · intro H b
    constructor
    · rintro ⟨a, ha, rfl⟩ f hf x hx
      obtain ⟨_, x', -, -, -, hx', -, hall, -⟩ := hfac f hf
      obtain rfl := hx.vec_unique hx'
      rw [sum_dotProduct]
      exact Finset.sum_nonneg fun i _ => by
        rw [smul_dotProduct, smul_eq_mul]; exact mul_nonneg (ha i) (hall i)
    · intro hb
      by_contra hcon
      obtain ⟨x, hx, hbx, hr⟩ := separating_facet v htop b hcon
      obtain ⟨l, hpw, hT, hli, hspan, hlen⟩ := exists_positions v {i | v i ⬝ᵥ x = 0}
      obtain ⟨j, hj, hlast⟩ := exists_last (hne x hr)
      unfold tight at hr
      have hn : IsNormal (v '' {i | i ∈ l}) ((x j)⁻¹ • x) := by
        refine IsNormal.of_hyperplane (by rw [hspan]; exact hr) ?_ hj hlast
        rintro _ ⟨i, hi, rfl⟩
        exact hT i hi
      obtain ⟨a, ha, hfn⟩ : ∃ a : K, 0 < a ∧ FacetNormal v l (a • x) := by
        have hnn : ∀ a : K, 0 < a → ∀ i, 0 ≤ v i ⬝ᵥ (a • x) := fun a ha i => by
          rw [dotProduct_smul, smul_eq_mul]; exact mul_nonneg ha.le (hx i)
        rcases lt_or_gt_of_ne hj with hneg | hpos
        · have h1 : 0 < -(x j)⁻¹ := neg_pos.mpr (inv_lt_zero.mpr hneg)
          refine ⟨-(x j)⁻¹, h1, hli, hnn _ h1, h0, _, hn, Or.inr ⟨neg_smul _ _, ?_⟩⟩
          rw [dotProduct_smul, smul_eq_mul]
          refine mul_neg_of_neg_of_pos (inv_lt_zero.mpr hneg) (lt_of_le_of_ne (hx _) fun e => ?_)
          obtain ⟨j', hj', hlast'⟩ := H x hx hr e.symm
          rcases lt_trichotomy j j' with h | rfl | h
          · exact hj'.ne' (hlast _ h)
          · exact absurd hj' (not_lt.mpr hneg.le)
          · exact hj (hlast' _ h)
        · have h1 : 0 < (x j)⁻¹ := inv_pos.mpr hpos
          exact ⟨(x j)⁻¹, h1, hli, hnn _ h1, h0, _, hn, Or.inl ⟨rfl, hnn _ h1 _⟩⟩
      have hlS : l ∈ S := (hS l).mpr ⟨hpw, by omega, _, hfn⟩
      obtain ⟨f, hf, y, hy, hfy⟩ : ∃ f ∈ c.facets, ∃ y : Fin m → K, f.normal.RepresentsVec y ∧ FacetNormal v l y := by
        obtain ⟨i, hi, rfl⟩ := List.getElem_of_mem hlS
        have hl := hSf.length_eq
        exact ⟨c.facets[i]'(hl ▸ hi), List.getElem_mem _,
          (List.forall₂_iff_get.mp hSf |>.2 i (hl ▸ hi) hi).2⟩
      have := hb f hf y hy
      rw [hfy.unique hfn, dotProduct_smul, smul_eq_mul] at this
      have := mul_neg_of_pos_of_neg ha hbx
      linarith

end

section examples
attribute [local instance] Rational.lawful

/-- The generators `(1,1), (1,0), (0,1)`: the first is on no supporting hyperplane, and both facets are
recorded. -/
example : letI := Rational.field .debug
    letI := Rational.stability .debug
    letI := Rational.fieldOrd .debug
    (fun c => (c.dim, c.facets.map Face.normal)) <$>
        Cone.new [ratMat 2 1 [1, 1], ratMat 2 1 [1, 0], ratMat 2 1 [0, 1]] =
      .ok (2, [ratMat 2 1 [0, 1], ratMat 2 1 [1, 0]]) := by
  decide +kernel

/-- The generators `(1,0), (0,-1)`: the hyperplane `{x₂ = 0}` contains the first, its inner normal
`(0,-1)` has a negative last entry, and the half-space is not recorded: `(0,1)` is in all recorded
half-spaces but not in the cone. -/
example : letI := Rational.field .debug
    letI := Rational.stability .debug
    letI := Rational.fieldOrd .debug
    (fun c => (c.dim, c.facets.map Face.normal)) <$> Cone.new [ratMat 2 1 [1, 0], ratMat 2 1 [0, -1]] =
      .ok (2, [ratMat 2 1 [1, 0]]) ∧
    ¬ ∃ a : Fin 2 → ℚ, (∀ i, 0 ≤ a i) ∧ ![(0 : ℚ), 1] = ∑ i, a i • (![![1, 0], ![0, -1]] : Fin 2 → Fin 2 → ℚ) i := by
  refine ⟨by decide +kernel, ?_⟩
  rintro ⟨a, ha, hs⟩
  have h1 := congrFun hs 1
  simp [Fin.sum_univ_two] at h1
  have := ha 1
  linarith

end examples
end Verif
