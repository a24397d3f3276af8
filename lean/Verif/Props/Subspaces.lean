import Verif.Props.Ranks

/-!
# Property C239: subspaces given by vectors

Conventions as in `Props/Elim.lean`. A subspace of `K^n` is given by a list of vectors that span it.
-/

set_option linter.unusedSectionVars false

namespace Verif
open Res LawfulRField LinAlg

variable {F : Type} [RField F] {K : Type} [Field K] [LawfulRField F K] [EpsilonEquality F]
  [StabilityCmp F] [LawfulPivot F K]

omit [LawfulPivot F K] [LawfulRField F K] in
/-- The kernel of the matrix whose rows are the given vectors. -/
def equationsOf (gs : List (Mat F)) : Res (List (Mat F)) := do
  let M ← Mat.fromRowVectors gs
  kernelOf M

omit [LawfulPivot F K] [LawfulRField F K] in
/-- The kernel of the equations of two subspaces together. -/
def intersectionOf (gs hs : List (Mat F)) : Res (List (Mat F)) := do
  let es ← equationsOf gs
  let fs ← equationsOf hs
  equationsOf (es ++ fs)

omit [LawfulPivot F K] [LawfulRField F K] in
/-- The range of the matrix whose columns are the given vectors. -/
def sumOf (order : List ℕ → List ℕ) (gs hs : List (Mat F)) : Res (List (Mat F)) := do
  let M ← Mat.fromColVectors (gs ++ hs)
  rangeOf order M

section
variable {n : ℕ}

theorem append_reps {gs hs : List (Mat F)} {v : Fin gs.length → Fin n → K}
    {u : Fin hs.length → Fin n → K} (hv : ∀ k, (gs.get k).RepresentsVec (v k))
    (hu : ∀ k, (hs.get k).RepresentsVec (u k)) :
    ∃ w : Fin (gs ++ hs).length → Fin n → K, (∀ k, ((gs ++ hs).get k).RepresentsVec (w k)) ∧
      Set.range w = Set.range v ∪ Set.range u := by
  have hl : ∀ k : Fin (gs ++ hs).length, ¬(k : ℕ) < gs.length → (k : ℕ) - gs.length < hs.length := by
    intro k hk
    have := k.2
    have h := List.length_append (as := gs) (bs := hs)
    omega
  refine ⟨fun k => if h : (k : ℕ) < gs.length then v ⟨k, h⟩ else u ⟨k - gs.length, hl k h⟩, ?_, ?_⟩
  · intro k
    by_cases h : (k : ℕ) < gs.length
    · have := hv ⟨k, h⟩
      simp only [dif_pos h]
      rwa [show (gs ++ hs).get k = gs.get ⟨k, h⟩ from List.getElem_append_left h]
    · have := hu ⟨k - gs.length, hl k h⟩
      simp only [dif_neg h]
      rwa [show (gs ++ hs).get k = hs.get ⟨k - gs.length, hl k h⟩ from
        List.getElem_append_right (by omega)]
  · ext x
    constructor
    · rintro ⟨k, rfl⟩
      by_cases h : (k : ℕ) < gs.length
      · exact Or.inl ⟨⟨k, h⟩, by simp only [dif_pos h]⟩
      · exact Or.inr ⟨⟨k - gs.length, hl k h⟩, by simp only [dif_neg h]⟩
    · rintro (⟨k, rfl⟩ | ⟨k, rfl⟩)
      · exact ⟨⟨k, by rw [List.length_append]; omega⟩, by simp only [dif_pos k.2]⟩
      · refine ⟨⟨gs.length + k, by rw [List.length_append]; omega⟩, ?_⟩
        simp only [dif_neg (show ¬gs.length + (k : ℕ) < gs.length by omega), Nat.add_sub_cancel_left]

theorem mulVec_of_eq_zero {ι : Type} (v : ι → Fin n → K) (x : Fin n → K) :
    (Matrix.of v).mulVec x = 0 ↔ ∀ i, v i ⬝ᵥ x = 0 :=
  ⟨fun h i => congrFun h i, fun h => funext h⟩

theorem range_cols {ι : Type} [Fintype ι] (v : ι → Fin n → K) :
    LinearMap.range (Matrix.of fun i k => v k i).mulVecLin = Submodule.span K (Set.range v) := by
  rw [Matrix.range_mulVecLin]
  rfl

/-- The subspace spanned by the rows is that of the vectors orthogonal to the kernel. -/
theorem span_eq_orthogonal {p q : ℕ} (v : Fin p → Fin n → K) (w : Fin q → Fin n → K)
    (hw : LinearIndependent K w)
    (hs : Submodule.span K (Set.range w) = LinearMap.ker (Matrix.of v).mulVecLin) :
    q + Module.finrank K (Submodule.span K (Set.range v)) = n ∧
      ∀ x, x ∈ Submodule.span K (Set.range v) ↔ ∀ i, w i ⬝ᵥ x = 0 := by
  have h1 := finrank_span_eq_card hw
  have hr : Module.finrank K (Submodule.span K (Set.range v)) = (Matrix.of v).rank := by
    rw [← Matrix.rank_transpose, Matrix.rank, ← range_cols]; rfl
  have hk := (Matrix.of v).mulVecLin.finrank_range_add_finrank_ker
  rw [Module.finrank_fin_fun, ← hs, h1, Fintype.card_fin] at hk
  have hq : q + Module.finrank K (Submodule.span K (Set.range v)) = n := by
    rw [hr, Matrix.rank]; omega
  refine ⟨hq, ?_⟩
  have hle : Submodule.span K (Set.range v) ≤ LinearMap.ker (Matrix.of w).mulVecLin := by
    rw [Submodule.span_le]
    rintro _ ⟨j, rfl⟩
    refine (mulVec_of_eq_zero w _).mpr fun i => ?_
    have : w i ∈ LinearMap.ker (Matrix.of v).mulVecLin := hs ▸ Submodule.subset_span ⟨i, rfl⟩
    rw [dotProduct_comm]
    exact (mulVec_of_eq_zero v _).mp this j
  have heq : Submodule.span K (Set.range v) = LinearMap.ker (Matrix.of w).mulVecLin := by
    refine Submodule.eq_of_le_of_finrank_eq hle ?_
    have h2 := (Matrix.of w).mulVecLin.finrank_range_add_finrank_ker
    have h3 : Module.finrank K (LinearMap.range (Matrix.of w).mulVecLin) = q := by
      have : Module.finrank K (LinearMap.range (Matrix.of w).mulVecLin) = (Matrix.of w).rank := rfl
      rw [this, ← Matrix.rank_transpose, Matrix.rank]
      have h4 := range_cols w
      rw [show (Matrix.of w).transpose = Matrix.of fun i k => w k i from rfl, h4, h1, Fintype.card_fin]
    rw [Module.finrank_fin_fun] at h2
    omega
  intro x
  rw [heq]
  exact mulVec_of_eq_zero w x

section
variable (gs hs : List (Mat F)) (v : Fin gs.length → Fin n → K) (u : Fin hs.length → Fin n → K)

/-- The vectors of `equationsOf` are a basis of the vectors orthogonal to the given ones. -/
theorem equationsOf_spec (hne : gs ≠ []) (hv : ∀ k, (gs.get k).RepresentsVec (v k))
    (hl : gs.length * gs.length < 18446744073709551616) (hnl : gs.length * n < 18446744073709551616) :
    Spec (allowed F) (equationsOf gs) (fun es => ∃ w : Fin es.length → Fin n → K,
      (∀ i, (es.get i).RepresentsVec (w i)) ∧ LinearIndependent K w ∧
      Submodule.span K (Set.range w) = LinearMap.ker (Matrix.of v).mulVecLin) := by
  refine ((C51_from_row_vectors n gs v hne hv (by nlinarith) hnl).mono (fun _ h => h.elim)
    fun _ h => h).bind fun M hM => ?_
  exact C64_kernel M _ hM hl

/-- C239. The kernel of the matrix with the given rows: linearly independent equations of the subspace
that the rows span, as many as the dimension of the space less that of the subspace. -/
theorem C239_equations (hne : gs ≠ []) (hv : ∀ k, (gs.get k).RepresentsVec (v k))
    (hl : gs.length * gs.length < 18446744073709551616) (hnl : gs.length * n < 18446744073709551616) :
    Spec (allowed F) (equationsOf gs) (fun es => ∃ w : Fin es.length → Fin n → K,
      (∀ i, (es.get i).RepresentsVec (w i)) ∧ LinearIndependent K w ∧
      es.length + Module.finrank K (Submodule.span K (Set.range v)) = n ∧
      ∀ x, x ∈ Submodule.span K (Set.range v) ↔ ∀ i, w i ⬝ᵥ x = 0) :=
  (equationsOf_spec gs v hne hv hl hnl).imp fun _ ⟨w, h1, h2, h3⟩ =>
    ⟨w, h1, h2, span_eq_orthogonal v w h2 h3⟩

/-- C239. The kernel of the equations of two subspaces, not both the whole space, is a basis of the
intersection. -/
theorem C239_intersection (hg : gs ≠ []) (hh : hs ≠ []) (hv : ∀ k, (gs.get k).RepresentsVec (v k))
    (hu : ∀ k, (hs.get k).RepresentsVec (u k))
    (hgl : gs.length * gs.length < 18446744073709551616) (hgn : gs.length * n < 18446744073709551616)
    (hhl : hs.length * hs.length < 18446744073709551616) (hhn : hs.length * n < 18446744073709551616)
    (hn : (2 * n) * (2 * n) < 18446744073709551616)
    (htop : Submodule.span K (Set.range v) ⊓ Submodule.span K (Set.range u) ≠ ⊤) :
    Spec (allowed F) (intersectionOf gs hs) (fun is => ∃ w : Fin is.length → Fin n → K,
      (∀ i, (is.get i).RepresentsVec (w i)) ∧ LinearIndependent K w ∧
      Submodule.span K (Set.range w) =
        Submodule.span K (Set.range v) ⊓ Submodule.span K (Set.range u)) := by
  refine (C239_equations gs v hg hv hgl hgn).bind fun es ⟨a, ha, _, hal, hax⟩ => ?_
  refine (C239_equations hs u hh hu hhl hhn).bind fun fs ⟨b, hb, _, hbl, hbx⟩ => ?_
  obtain ⟨c, hc, hcr⟩ := append_reps ha hb
  have hmem : LinearMap.ker (Matrix.of c).mulVecLin =
      Submodule.span K (Set.range v) ⊓ Submodule.span K (Set.range u) := by
    ext x
    rw [Submodule.mem_inf, hax, hbx]
    refine (mulVec_of_eq_zero c x).trans ?_
    have : (∀ i, c i ⬝ᵥ x = 0) ↔ ∀ y ∈ Set.range c, y ⬝ᵥ x = 0 := by simp
    rw [this, hcr]
    constructor
    · exact fun h => ⟨fun i => h _ (Or.inl ⟨i, rfl⟩), fun i => h _ (Or.inr ⟨i, rfl⟩)⟩
    · rintro ⟨h1, h2⟩ y (⟨i, rfl⟩ | ⟨i, rfl⟩)
      · exact h1 i
      · exact h2 i
  have hne : es ++ fs ≠ [] := by
    intro h
    refine htop (hmem ▸ ?_)
    rw [eq_top_iff]
    intro x _
    refine (mulVec_of_eq_zero c x).mpr fun i => ?_
    have h1 := i.2
    have h2 : (es ++ fs).length = 0 := by rw [h]; rfl
    omega
  have hlen : (es ++ fs).length ≤ 2 * n := by rw [List.length_append]; omega
  refine (equationsOf_spec (es ++ fs) c hne hc ?_ ?_).imp fun is ⟨w, h1, h2, h3⟩ =>
    ⟨w, h1, h2, h3.trans hmem⟩
  · exact lt_of_le_of_lt (Nat.mul_le_mul hlen hlen) hn
  · exact lt_of_le_of_lt (Nat.mul_le_mul hlen (by omega)) hn

/-- C239. The range of the matrix with the vectors of both lists as columns is a basis of the sum, taken
from the two lists. -/
theorem C239_sum (order : List ℕ → List ℕ) (ho : ∀ l, (order l).Perm l) (hne : gs ++ hs ≠ [])
    (hv : ∀ k, (gs.get k).RepresentsVec (v k)) (hu : ∀ k, (hs.get k).RepresentsVec (u k))
    (hl : (gs ++ hs).length < 18446744073709551616)
    (hnl : n * (gs ++ hs).length < 18446744073709551616) (hn : n * n < 18446744073709551616) :
    Spec (allowed F) (sumOf order gs hs) (fun rs => ∃ w : Fin rs.length → Fin n → K,
      (∀ i, (rs.get i).RepresentsVec (w i)) ∧ (∀ i, w i ∈ Set.range v ∪ Set.range u) ∧
      LinearIndependent K w ∧ Submodule.span K (Set.range w) =
        Submodule.span K (Set.range v) ⊔ Submodule.span K (Set.range u)) := by
  obtain ⟨c, hc, hcr⟩ := append_reps hv hu
  refine ((C51_from_col_vectors n _ c hne hc hl hnl).mono (fun _ h => h.elim)
    fun _ h => h).bind fun M hM => ?_
  refine (C65_range M _ hM hn order ho).imp fun rs ⟨d, h1, h2, h3⟩ => ?_
  refine ⟨fun i => c (d i), h1, fun i => hcr ▸ ⟨d i, rfl⟩, h2, ?_⟩
  rw [← Submodule.span_union, ← hcr, ← range_cols c]
  exact h3

/-- C239. The dimension formula: the basis of the sum and that of the intersection have together as many
vectors as the ranks of the two lists add up to. -/
theorem C239_dimension (order : List ℕ → List ℕ) (ho : ∀ l, (order l).Perm l)
    (hg : gs ≠ []) (hh : hs ≠ []) (hv : ∀ k, (gs.get k).RepresentsVec (v k))
    (hu : ∀ k, (hs.get k).RepresentsVec (u k))
    (hl : (gs ++ hs).length * (gs ++ hs).length < 18446744073709551616)
    (hnl : n * (gs ++ hs).length < 18446744073709551616)
    (hn : (2 * n) * (2 * n) < 18446744073709551616)
    (htop : Submodule.span K (Set.range v) ⊓ Submodule.span K (Set.range u) ≠ ⊤) :
    Spec (allowed F) (do
      let rs ← sumOf order gs hs
      let is ← intersectionOf gs hs
      let G ← Mat.fromRowVectors gs
      let H ← Mat.fromRowVectors hs
      let r ← rankOf G
      let s ← rankOf H
      pure (rs, is, r, s)) (fun x => x.1.length + x.2.1.length = x.2.2.1 + x.2.2.2) := by
  have hgl : gs.length ≤ (gs ++ hs).length := by rw [List.length_append]; omega
  have hhl : hs.length ≤ (gs ++ hs).length := by rw [List.length_append]; omega
  have hgg := lt_of_le_of_lt (Nat.mul_le_mul hgl hgl) hl
  have hhh := lt_of_le_of_lt (Nat.mul_le_mul hhl hhl) hl
  have hgn : gs.length * n < 18446744073709551616 := by
    rw [mul_comm]; exact lt_of_le_of_lt (Nat.mul_le_mul_left n hgl) hnl
  have hhn : hs.length * n < 18446744073709551616 := by
    rw [mul_comm]; exact lt_of_le_of_lt (Nat.mul_le_mul_left n hhl) hnl
  have hrank : ∀ {p : ℕ} (v : Fin p → Fin n → K), (Matrix.of v).rank =
      Module.finrank K (Submodule.span K (Set.range v)) := fun v => by
    rw [← Matrix.rank_transpose, Matrix.rank, ← range_cols]; rfl
  refine (C239_sum gs hs v u order ho (by simp [hg]) hv hu (by nlinarith) hnl
    (by nlinarith)).bind fun rs ⟨a, _, _, ha, has⟩ => ?_
  refine (C239_intersection gs hs v u hg hh hv hu hgg hgn hhh hhn hn htop).bind
    fun is ⟨b, _, hb, hbs⟩ => ?_
  refine ((C51_from_row_vectors n gs v hg hv (by nlinarith) hgn).mono (fun _ h => h.elim)
    fun _ h => h).bind fun G hG => ?_
  refine ((C51_from_row_vectors n hs u hh hu (by nlinarith) hhn).mono (fun _ h => h.elim)
    fun _ h => h).bind fun H hH => ?_
  refine (rankOf_spec G _ hG hgg).bind fun r hr => ?_
  refine (rankOf_spec H _ hH hhh).bind fun s hs' => ?_
  show rs.length + is.length = r + s
  rw [hr, hs', hrank, hrank, ← Submodule.finrank_sup_add_finrank_inf_eq, ← has, ← hbs,
    finrank_span_eq_card ha, finrank_span_eq_card hb, Fintype.card_fin, Fintype.card_fin]

/-- C239. The second subspace is contained in the first exactly when its vectors do not change the rank. -/
theorem C239_contained (hg : gs ≠ []) (hv : ∀ k, (gs.get k).RepresentsVec (v k))
    (hu : ∀ k, (hs.get k).RepresentsVec (u k))
    (hl : (gs ++ hs).length * (gs ++ hs).length < 18446744073709551616)
    (hnl : n * (gs ++ hs).length < 18446744073709551616) :
    Spec (allowed F) (do
      let G ← Mat.fromRowVectors gs
      let B ← Mat.fromRowVectors (gs ++ hs)
      let r ← rankOf G
      let s ← rankOf B
      pure (r, s)) (fun x => x.1 = x.2 ↔
        Submodule.span K (Set.range u) ≤ Submodule.span K (Set.range v)) := by
  have hgl : gs.length ≤ (gs ++ hs).length := by rw [List.length_append]; omega
  have hgg := lt_of_le_of_lt (Nat.mul_le_mul hgl hgl) hl
  have hgn : gs.length * n < 18446744073709551616 := by
    rw [mul_comm]; exact lt_of_le_of_lt (Nat.mul_le_mul_left n hgl) hnl
  have hrank : ∀ {p : ℕ} (v : Fin p → Fin n → K), (Matrix.of v).rank =
      Module.finrank K (Submodule.span K (Set.range v)) := fun v => by
    rw [← Matrix.rank_transpose, Matrix.rank, ← range_cols]; rfl
  obtain ⟨c, hc, hcr⟩ := append_reps hv hu
  refine ((C51_from_row_vectors n gs v hg hv (by nlinarith) hgn).mono (fun _ h => h.elim)
    fun _ h => h).bind fun G hG => ?_
  refine ((C51_from_row_vectors n _ c (by simp [hg]) hc (by nlinarith)
    (by rw [mul_comm]; exact hnl)).mono (fun _ h => h.elim) fun _ h => h).bind fun B hB => ?_
  refine (rankOf_spec G _ hG hgg).bind fun r hr => ?_
  refine (rankOf_spec B _ hB hl).bind fun s hs' => ?_
  show r = s ↔ _
  rw [hr, hs', hrank, hrank, hcr, Submodule.span_union]
  constructor
  · intro h
    have := Submodule.eq_of_le_of_finrank_eq
      (le_sup_left : Submodule.span K (Set.range v) ≤ Submodule.span K (Set.range v) ⊔
        Submodule.span K (Set.range u)) h
    rw [this]
    exact le_sup_right
  · intro h
    rw [sup_eq_left.mpr h]

end
end

/-! ### Examples -/

/-- Two planes in space: their equations, a basis of the line in which they meet, and a basis of their
sum. -/
theorem C239_run : letI := Rational.field .debug
    letI := Rational.stability .debug
    let gs := [ratMat 3 1 [1, 0, 1], ratMat 3 1 [0, 1, 0]]
    let hs := [ratMat 3 1 [1, 1, 0], ratMat 3 1 [0, 0, 1]]
    equationsOf gs = .ok [ratMat 3 1 [-1, 0, 1]] ∧ equationsOf hs = .ok [ratMat 3 1 [-1, 1, 0]] ∧
    intersectionOf gs hs = .ok [ratMat 3 1 [1, 1, 1]] ∧
    sumOf id gs hs = .ok [ratMat 3 1 [1, 0, 1], ratMat 3 1 [0, 1, 0], ratMat 3 1 [1, 1, 0]] := by
  decide +kernel

/-- The lists of `C239_run` satisfy the hypotheses: the vectors are such vectors, and the planes are not the
whole space. -/
theorem C239_sample : letI := Rational.field .debug
    letI := Rational.lawful
    let gs := [ratMat 3 1 [1, 0, 1], ratMat 3 1 [0, 1, 0]]
    let hs := [ratMat 3 1 [1, 1, 0], ratMat 3 1 [0, 0, 1]]
    ∃ (v : Fin gs.length → Fin 3 → ℚ) (u : Fin hs.length → Fin 3 → ℚ),
      (∀ k, (gs.get k).RepresentsVec (v k)) ∧ (∀ k, (hs.get k).RepresentsVec (u k)) ∧
      Submodule.span ℚ (Set.range v) ⊓ Submodule.span ℚ (Set.range u) ≠ ⊤ := by
  let _ := Rational.field .debug
  let _ := Rational.lawful
  have hr : ∀ l : List Int, l.length = 3 →
      (ratMat 3 1 l).RepresentsVec fun i : Fin 3 => ((l.getD (i : ℕ) 0 : Int) : ℚ) := by
    intro l hl
    have h := ratMat_represents 3 1 l (by omega) (by decide) (by decide) (by omega)
    have he : (Matrix.of fun (i : Fin 3) (_ : Fin 1) => ((l.getD (i : ℕ) 0 : Int) : ℚ)) =
        fun (i : Fin 3) (j : Fin 1) => ((l.getD ((i : ℕ) * 1 + (j : ℕ)) 0 : Int) : ℚ) := by
      funext i j
      fin_cases j
      simp
    unfold Mat.RepresentsVec
    rw [he]
    exact h
  refine ⟨fun k i => (([[1, 0, 1], [0, 1, 0]].get k).getD (i : ℕ) 0 : Int),
    fun k i => (([[1, 1, 0], [0, 0, 1]].get k).getD (i : ℕ) 0 : Int), ?_, ?_, ?_⟩
  · intro k
    fin_cases k
    · exact hr [1, 0, 1] rfl
    · exact hr [0, 1, 0] rfl
  · intro k
    fin_cases k
    · exact hr [1, 1, 0] rfl
    · exact hr [0, 0, 1] rfl
  · intro h
    have h1 := (inf_eq_top_iff.mp h).1
    have h2 := finrank_range_le_card (R := ℚ)
      (fun (k : Fin 2) (i : Fin 3) => ((([[1, 0, 1], [0, 1, 0]].get k).getD (i : ℕ) 0 : Int) : ℚ))
    rw [Set.finrank] at h2
    erw [h1] at h2
    rw [finrank_top, Module.finrank_fin_fun, Fintype.card_fin] at h2
    omega

end Verif
