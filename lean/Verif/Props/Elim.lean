import Verif.Proofs.Bridge
import Verif.Proofs.Num
import Verif.Props.Mat

/-!
# Properties C12 and C59–C67: elimination

`M` is a matrix of the program representing `A : Matrix (Fin n) (Fin m) K`.  `F` is any coefficient
type that is a lawful field with lawful pivoting: `Rational` with `K = ℚ` (only `i64` overflow can
panic) or an exact field (no panic).  `n * n < 2^64` is assumed because the code builds an `n x n`
matrix whose entries are a vector.
-/

set_option linter.unusedSectionVars false

namespace Verif
open Res LawfulRField LinAlg

/-! ## C12 pivot selection -/

/-- C12: over rationals, `get_max_index` with `stability_cmp` returns an index in range, and the
entry there is nonzero if the list has a nonzero entry. -/
theorem C12_pivot (l : List Rational) (hl : l ≠ []) (hw : ∀ x ∈ l, x.WF) :
    Spec IsOverflow (getMaxIndex l (Rational.stabilityCmp .debug)) (fun i => ∃ x, l[i]? = some x ∧
      ((∃ y ∈ l, y.val ≠ 0) → x.val ≠ 0)) := by
  let _ := Rational.field .debug
  let _ := Rational.lawful
  let _ := Rational.stability .debug
  have := Rational.lawfulPivot
  exact getMaxIndex_spec (F := Rational) l hl hw

example : getMaxIndex [⟨0, 1⟩, ⟨2, 3⟩, ⟨0, 1⟩, ⟨0, 1⟩] (Rational.stabilityCmp .debug) = .ok 1 := by decide

variable {F : Type} [RField F] {K : Type} [Field K] [LawfulRField F K] [EpsilonEquality F]
  [StabilityCmp F] [LawfulPivot F K]

section
variable {n m : ℕ} (M : Mat F) (A : Matrix (Fin n) (Fin m) K) (hM : M.Represents A)
  (hn : n * n < 18446744073709551616)
include hM hn

/-! ## C59, C60 LU decomposition -/

/-- C59 and C60 together. -/
theorem lu_spec : Spec (allowed F) M.lu (fun d => ∃ (σ : Equiv.Perm (Fin n))
      (L : Matrix (Fin n) (Fin n) K) (U : Matrix (Fin n) (Fin m) K),
      d.p.Represents (σ.permMatrix K) ∧ d.l.Represents L ∧ d.u.Represents U ∧
      σ.permMatrix K * A = L * U ∧ (∀ i j, i < j → L i j = 0) ∧ IsUnit L ∧
      ∃ k piv, RowEchelon U k piv) := by
  refine (hM.is.lu hn).imp ?_
  rintro d ⟨π, l, u, k, piv, hπ, hp, hl, hu, h1, h2, h3, h4⟩
  obtain ⟨σ, hσ⟩ := hπ.exists_perm
  refine ⟨σ, mat n n l, mat n m u, hp.represents fun i j => ?_, hl.represents fun _ _ => rfl,
    hu.represents fun _ _ => rfl, ?_, fun i j hij => h1 i j hij j.2, isUnit_lower h1 h2,
    k, _, h4.rowEchelon⟩
  · simp only [Equiv.Perm.permMatrix, PEquiv.toMatrix_apply, Equiv.toPEquiv_apply, Option.mem_def,
      Option.some.injEq, Fin.ext_iff, hσ]
  · ext i j
    rw [perm_mul, Matrix.mul_apply]
    have := h3 i j i.2 j.2
    rw [← hσ, matExt_fin, Finset.sum_range] at this
    exact this

/-- C59: `lu` returns `p`, `l`, `u` with `p * A = l * u`, where `p` is a permutation matrix and `l`
is lower triangular and invertible. -/
theorem C59_lu : Spec (allowed F) M.lu (fun d => ∃ (σ : Equiv.Perm (Fin n))
      (L : Matrix (Fin n) (Fin n) K) (U : Matrix (Fin n) (Fin m) K),
      d.p.Represents (σ.permMatrix K) ∧ d.l.Represents L ∧ d.u.Represents U ∧
      σ.permMatrix K * A = L * U ∧ (∀ i j, i < j → L i j = 0) ∧ IsUnit L) :=
  (lu_spec M A hM hn).imp fun _ ⟨σ, L, U, h1, h2, h3, h4, h5, h6, _⟩ =>
    ⟨σ, L, U, h1, h2, h3, h4, h5, h6⟩

/-- C60: the `u` of `lu` is in row echelon form with unit pivots. -/
theorem C60_lu_echelon : Spec (allowed F) M.lu (fun d => ∃ (U : Matrix (Fin n) (Fin m) K) (k : ℕ)
      (piv : Fin k → Fin m), d.u.Represents U ∧ RowEchelon U k piv) :=
  (lu_spec M A hM hn).imp fun _ ⟨_, _, U, _, _, h3, _, _, _, k, piv, h7⟩ => ⟨U, k, piv, h3, h7⟩

/-! ## C61 row_echelon -/

/-- C61: `row_echelon` returns an invertible `p` and a row echelon form `b` with `p * A = b`. -/
theorem C61_row_echelon : Spec (allowed F) M.rowEchelon (fun f => ∃ (P : Matrix (Fin n) (Fin n) K)
      (B : Matrix (Fin n) (Fin m) K) (k : ℕ) (piv : Fin k → Fin m),
      f.p.Represents P ∧ f.b.Represents B ∧ f.original = M ∧ IsUnit P ∧ P * A = B ∧
      RowEchelon B k piv) := by
  refine (hM.is.rowEchelon hn).imp ?_
  rintro f ⟨b, k, piv, hf, he⟩
  obtain ⟨p, hp, hu, hpa⟩ := hf.p_is
  rw [mat_matExt] at hpa
  exact ⟨mat n n p, mat n m b, k, _, hp.represents fun _ _ => rfl, hf.b_is.represents fun _ _ => rfl,
    hf.original, hu, hpa, he.rowEchelon⟩

/-! ## C62 to_rref -/

omit hM hn [LawfulPivot F K] [LawfulRField F K] in
/-- `M.row_echelon().to_rref()` -/
def rref (M : Mat F) : Res (Form F) := do
  let f ← M.rowEchelon
  f.toRref

theorem rref_spec : Spec (allowed F) (rref M) (fun f => ∃ b k piv, f.Is M n m (matExt A) b ∧
    REch n m k piv b) := by
  refine (hM.is.rowEchelon hn).bind ?_
  rintro f ⟨b, k, piv, hf, he⟩
  exact (hf.toRref he).imp fun f' ⟨b', h1, h2⟩ => ⟨b', k, piv, h1, h2⟩

/-- C62: `row_echelon().to_rref()` returns an invertible `p` and a reduced row echelon form `b` with
`p * A = b`. -/
theorem C62_rref : Spec (allowed F) (rref M) (fun f => ∃ (P : Matrix (Fin n) (Fin n) K)
      (B : Matrix (Fin n) (Fin m) K) (k : ℕ) (piv : Fin k → Fin m),
      f.p.Represents P ∧ f.b.Represents B ∧ f.original = M ∧ IsUnit P ∧ P * A = B ∧
      ReducedRowEchelon B k piv) := by
  refine (rref_spec M A hM hn).imp ?_
  rintro f ⟨b, k, piv, hf, he⟩
  obtain ⟨p, hp, hu, hpa⟩ := hf.p_is
  rw [mat_matExt] at hpa
  exact ⟨mat n n p, mat n m b, k, _, hp.represents fun _ _ => rfl, hf.b_is.represents fun _ _ => rfl,
    hf.original, hu, hpa, he.reduced⟩

/-- C62, uniqueness: row-equivalent matrices have the same reduced row echelon form, whatever pivots
were chosen. -/
theorem C62_unique (N : Mat F) (E : Matrix (Fin n) (Fin n) K) (hE : IsUnit E)
    (hN : N.Represents (E * A)) (f g : Form F) (hf : rref M = .ok f) (hg : rref N = .ok g) :
    ∃ B : Matrix (Fin n) (Fin m) K, f.b.Represents B ∧ g.b.Represents B := by
  obtain ⟨b, k, piv, hf, he⟩ := (rref_spec M A hM hn).of_ok hf
  obtain ⟨b', k', piv', hg, he'⟩ := (rref_spec N (E * A) hN hn).of_ok hg
  obtain ⟨p, _, hu, hpa⟩ := hf.p_is
  obtain ⟨p', _, hu', hpa'⟩ := hg.p_is
  rw [mat_matExt] at hpa hpa'
  refine ⟨mat n m b, hf.b_is.represents fun _ _ => rfl, hg.b_is.represents fun i j => ?_⟩
  refine (he.unique he' (fun x => ?_) m le_rfl i i.2 j j.2).symm
  rw [← mulVec_eq_zero, ← mulVec_eq_zero, ← hpa, ← hpa', mulVec_unit hu, mulVec_unit hu', mulVec_unit hE]

/-! ## C63 rank and nullity -/

/-- C63: on the row echelon form and on the reduced one, `rank` is the rank of the original matrix,
`nullity` the dimension of its kernel, and they add up to the number of columns. -/
theorem C63_rank_nullity :
    Spec (allowed F) (do let f ← M.rowEchelon; let r ← f.rank; let k ← f.nullity; pure (r, k))
      (fun p => p.1 = A.rank ∧ p.2 = Module.finrank K (LinearMap.ker A.mulVecLin) ∧ p.1 + p.2 = m) ∧
    Spec (allowed F) (do let f ← rref M; let r ← f.rank; let k ← f.nullity; pure (r, k))
      (fun p => p.1 = A.rank ∧ p.2 = Module.finrank K (LinearMap.ker A.mulVecLin) ∧ p.1 + p.2 = m) := by
  have key : ∀ (f : Form F) b k piv, f.Is M n m (matExt A) b → Ech n m k piv b →
      Spec (allowed F) (do let r ← f.rank; let k ← f.nullity; pure (r, k))
      (fun p => p.1 = A.rank ∧ p.2 = Module.finrank K (LinearMap.ker A.mulVecLin) ∧ p.1 + p.2 = m) := by
    intro f b k piv hf he
    refine (hf.rank he).bind ?_
    rintro _ rfl
    refine (hf.nullity he).bind ?_
    rintro _ rfl
    obtain ⟨p, _, hu, hpa⟩ := hf.p_is
    rw [mat_matExt] at hpa
    have hr := he.rank_eq
    rw [← hpa, rank_of_unit hu] at hr
    have := he.le_cols
    refine ⟨hr.symm, ?_, ?_⟩
    · rw [finrank_ker, hr]
    · omega
  constructor
  · refine (hM.is.rowEchelon hn).bind ?_
    rintro f ⟨b, k, piv, hf, he⟩
    exact key f b k piv hf he
  · refine (rref_spec M A hM hn).bind ?_
    rintro f ⟨b, k, piv, hf, he⟩
    exact key f b k piv hf he.toEch

/-! ## C64 compute_kernel -/

omit hM hn in
theorem forall₂_vecs {q : ℕ} {α : Type} {l : List α} {ws : List (Mat F)} {v : α → ℕ → K}
    (h : List.Forall₂ (fun c w => w.Is q 1 (fun j _ => v c j)) l ws) :
    ∃ hl : ws.length = l.length, ∀ k, (ws.get k).RepresentsVec
      (fun j : Fin q => v (l.get (k.cast hl)) j) := by
  have hl := h.length_eq
  refine ⟨hl.symm, fun k => ?_⟩
  have hk : l[(k : ℕ)]? = some (l.get (k.cast hl.symm)) := by simp
  obtain ⟨w, hw, hw'⟩ := forall₂_get h hk
  have : w = ws.get k := by simpa using hw.symm
  subst this
  exact hw'.represents fun i j => rfl

/-- C64: the vectors of `compute_kernel` are linearly independent and span the kernel. -/
theorem C64_kernel : Spec (allowed F) (do let f ← rref M; f.computeKernel)
    (fun ks => ∃ v : Fin ks.length → Fin m → K, (∀ i, (ks.get i).RepresentsVec (v i)) ∧
      LinearIndependent K v ∧ Submodule.span K (Set.range v) = LinearMap.ker A.mulVecLin) := by
  refine (rref_spec M A hM hn).bind ?_
  rintro f ⟨b, k, piv, hf, he⟩
  refine (hf.computeKernel he.toEch).imp fun ks hks => ?_
  obtain ⟨hl, hv⟩ := forall₂_vecs hks
  obtain ⟨h1, h2⟩ := he.kernel_basis
  obtain ⟨p, _, hu, hpa⟩ := hf.p_is
  rw [mat_matExt] at hpa
  refine ⟨_, hv, h1.comp _ (finCongr hl).injective, ?_⟩
  have hker : LinearMap.ker (mat n m b).mulVecLin = LinearMap.ker A.mulVecLin := by
    ext x
    rw [LinearMap.mem_ker, LinearMap.mem_ker, Matrix.mulVecLin_apply, Matrix.mulVecLin_apply, ← hpa,
      mulVec_unit hu]
  rw [← hker, ← h2]
  congr 1
  exact (finCongr hl).surjective.range_comp (fun (q : Fin (freeCols m k piv).length) (j : Fin m) =>
      kv b k piv ((freeCols m k piv).get q) j)

/-! ## C65 compute_range -/

/-- C65: whatever order the hash set is iterated in, the vectors of `compute_range` are linearly
independent columns of the original matrix and span its column space. -/
theorem C65_range (order : List ℕ → List ℕ) (ho : ∀ l, (order l).Perm l) :
    Spec (allowed F) (do let f ← rref M; f.computeRange order)
    (fun rs => ∃ c : Fin rs.length → Fin m,
      (∀ i, (rs.get i).RepresentsVec fun r => A r (c i)) ∧
      LinearIndependent K (fun i r => A r (c i)) ∧
      Submodule.span K (Set.range fun i r => A r (c i)) = LinearMap.range A.mulVecLin) := by
  refine (rref_spec M A hM hn).bind ?_
  rintro f ⟨b, k, piv, hf, he⟩
  refine (hf.computeRange hM.is he.toEch ho).imp ?_
  rintro rs ⟨cs, hnd, hcs, hrs⟩
  obtain ⟨hl, hv⟩ := forall₂_vecs (v := fun c i => matExt A i c) hrs
  obtain ⟨p, _, hu, hpa⟩ := hf.p_is
  obtain ⟨h1, h2⟩ := he.toEch.range_basis hpa hu hnd hcs
  have hlt : ∀ q : Fin cs.length, cs.get q < m := fun q => by
    obtain ⟨r, hr, he'⟩ := (hcs _).mp (List.get_mem cs q)
    rw [← he']; exact he.lt r hr
  have hA : (fun (q : Fin cs.length) (i : Fin n) => matExt A i (cs.get q)) =
      fun q i => A i ⟨cs.get q, hlt q⟩ := by
    funext q i
    exact matExt_fin A i ⟨cs.get q, hlt q⟩
  refine ⟨fun i => ⟨cs.get (i.cast hl), hlt _⟩, fun i => ?_, ?_, ?_⟩
  · have := hv i
    have e : (fun j : Fin n => matExt A j (cs.get (i.cast hl))) =
        fun r => A r ⟨cs.get (i.cast hl), hlt _⟩ := congrFun hA (i.cast hl)
    rw [e] at this
    exact this
  · rw [hA] at h1
    exact h1.comp _ (finCongr hl).injective
  · rw [hA, mat_matExt] at h2
    rw [← h2]
    congr 1
    exact (finCongr hl).surjective.range_comp (fun (q : Fin cs.length) (i : Fin n) =>
      A i ⟨cs.get q, hlt q⟩)

/-! ## C66 no other failures -/

/-- Every elimination routine terminates, and panics at most in the coefficient arithmetic. -/
theorem elim_safe (order : List ℕ → List ℕ) (ho : ∀ l, (order l).Perm l) :
    Spec (allowed F) M.lu (fun _ => True) ∧
    Spec (allowed F) M.rowEchelon (fun f => Spec (allowed F) f.rank (fun _ => True) ∧
      Spec (allowed F) f.nullity (fun _ => True) ∧
      Spec (allowed F) f.toRref (fun g => Spec (allowed F) g.rank (fun _ => True) ∧
        Spec (allowed F) g.nullity (fun _ => True) ∧
        Spec (allowed F) g.computeKernel (fun _ => True) ∧
        Spec (allowed F) (g.computeRange order) (fun _ => True))) := by
  refine ⟨(hM.is.lu hn).imp fun _ _ => trivial, (hM.is.rowEchelon hn).imp ?_⟩
  rintro f ⟨b, k, piv, hf, he⟩
  refine ⟨(hf.rank he).imp fun _ _ => trivial, (hf.nullity he).imp fun _ _ => trivial,
    (hf.toRref he).imp ?_⟩
  rintro g ⟨b', hg, he'⟩
  exact ⟨(hg.rank he'.toEch).imp fun _ _ => trivial, (hg.nullity he'.toEch).imp fun _ _ => trivial,
    (hg.computeKernel he'.toEch).imp fun _ _ => trivial,
    (hg.computeRange hM.is he'.toEch ho).imp fun _ _ => trivial⟩

end

/-- C66, rationals: `lu`, `row_echelon`, `to_rref`, `rank`, `nullity`, `compute_kernel`,
`compute_range` terminate, and the only panic possible is `i64` overflow. -/
theorem C66_rational {n m : ℕ} (M : Mat Rational) (A : Matrix (Fin n) (Fin m) ℚ)
    (order : List ℕ → List ℕ) (ho : ∀ l, (order l).Perm l) (hn : n * n < 18446744073709551616) :
    letI := Rational.field .debug
    letI := Rational.lawful
    letI := Rational.stability .debug
    M.Represents A →
    Spec IsOverflow M.lu (fun _ => True) ∧
    Spec IsOverflow M.rowEchelon (fun f => Spec IsOverflow f.rank (fun _ => True) ∧
      Spec IsOverflow f.nullity (fun _ => True) ∧
      Spec IsOverflow f.toRref (fun g => Spec IsOverflow g.rank (fun _ => True) ∧
        Spec IsOverflow g.nullity (fun _ => True) ∧
        Spec IsOverflow g.computeKernel (fun _ => True) ∧
        Spec IsOverflow (g.computeRange order) (fun _ => True))) := by
  let _ := Rational.field .debug
  let _ := Rational.lawful
  let _ := Rational.stability .debug
  have := Rational.lawfulPivot
  intro hM
  exact elim_safe (F := Rational) M A hM hn order ho

/-- C66, exact fields: nothing panics.  `epsilon_equals` and `stability_cmp` are any functions that
recognise zero. -/
theorem C66_exact {K : Type} [Field K] [DecidableEq K] [EpsilonEquality K] [StabilityCmp K] {n m : ℕ}
    (M : Mat K) (A : Matrix (Fin n) (Fin m) K) (order : List ℕ → List ℕ) (ho : ∀ l, (order l).Perm l)
    (hn : n * n < 18446744073709551616) :
    letI := exactField .debug K
    letI := exactLawful K
    LawfulPivot K K → M.Represents A →
    (∃ d, M.lu = .ok d) ∧ ∃ f g, M.rowEchelon = .ok f ∧ f.toRref = .ok g ∧
      (∃ x, f.rank = .ok x) ∧ (∃ x, f.nullity = .ok x) ∧ (∃ x, g.rank = .ok x) ∧
      (∃ x, g.nullity = .ok x) ∧ (∃ x, g.computeKernel = .ok x) ∧
      (∃ x, g.computeRange order = .ok x) := by
  let _ := exactField .debug K
  let _ := exactLawful K
  intro _ hM
  obtain ⟨h1, h2⟩ := elim_safe (F := K) M A hM hn order ho
  have tot : ∀ {α : Type} {x : Res α} {P : α → Prop}, Spec (allowed K) x P → ∃ a, x = .ok a ∧ P a := by
    intro α x P h
    cases x with
    | ok a => exact ⟨a, rfl, h⟩
    | panic p => exact h.elim
    | diverge => exact h.elim
  have tot' : ∀ {α : Type} {x : Res α}, Spec (allowed K) x (fun _ => True) → ∃ a, x = .ok a :=
    fun h => (tot h).imp fun _ h => h.1
  obtain ⟨f, hf, h3, h4, h5⟩ := tot h2
  obtain ⟨g, hg, h6, h7, h8, h9⟩ := tot h5
  exact ⟨tot' h1, f, g, hf, hg, tot' h3, tot' h4, tot' h6, tot' h7, tot' h8, tot' h9⟩

/-! ## C67 lu and row_echelon agree -/

section agree
omit [LawfulPivot F K] [LawfulRField F K]
variable {F : Type} [RField F]

theorem permute_agree {lu lu' : LUInternal F} {f f' : Form F} {s t : ℕ} (h : lu.u = f.b)
    (h1 : lu.permute s t = .ok lu') (h2 : f.permuteRows s t = .ok f') : lu'.u = f'.b := by
  simp only [LUInternal.permute, Form.permuteRows, bind_eq_ok, pure_eq, Res.ok.injEq] at h1 h2
  obtain ⟨_, _, u, hu, _, _, rfl⟩ := h1
  obtain ⟨_, _, b, hb, rfl⟩ := h2
  rw [h, hb] at hu
  cases hu
  rfl

theorem scaleRow_agree {lu lu' : LUInternal F} {f f' : Form F} {r : ℕ} {x s : F} (h : lu.u = f.b)
    (hs : RField.div RField.one x = .ok s)
    (h1 : lu.scaleRow r x = .ok lu') (h2 : f.scaleRow r s = .ok f') : lu'.u = f'.b := by
  simp only [LUInternal.scaleRow, Form.scaleRow, bind_eq_ok, pure_eq, Res.ok.injEq] at h1 h2
  obtain ⟨_, _, s', hs', u, hu, rfl⟩ := h1
  obtain ⟨_, _, b, hb, rfl⟩ := h2
  rw [hs] at hs'
  cases hs'
  rw [h, hb] at hu
  cases hu
  rfl

theorem replace_agree {lu lu' : LUInternal F} {f f' : Form F} {r c : ℕ} (h : lu.u = f.b)
    (h1 : lu.replaceColUnderRow r c = .ok lu') (h2 : f.replaceColUnderRow r c = .ok f') :
    lu'.u = f'.b := by
  unfold LUInternal.replaceColUnderRow at h1
  unfold Form.replaceColUnderRow at h2
  rw [h] at h1
  generalize List.range' (r + 1) (f.b.rows - (r + 1)) = l at h1 h2
  induction l generalizing lu f with
  | nil =>
    simp only [List.foldlM_nil, pure_eq, Res.ok.injEq] at h1 h2
    rw [← h1, ← h2]; exact h
  | cons r2 rs ih =>
    rw [List.foldlM_cons, bind_eq_ok] at h1 h2
    obtain ⟨lu₁, e1, h1⟩ := h1
    obtain ⟨f₁, e2, h2⟩ := h2
    refine ih ?_ h1 h2
    simp only [Form.replaceStep, bind_eq_ok, pure_eq, Res.ok.injEq] at e1 e2
    obtain ⟨x, hx, s, hs, u, hu, _, _, rfl⟩ := e1
    obtain ⟨x', hx', s', hs', _, _, s'', hs'', b, hb, rfl⟩ := e2
    rw [h, hx'] at hx; cases hx
    rw [hs'] at hs; cases hs
    rw [hs'] at hs''; cases hs''
    rw [h, hb] at hu; cases hu
    rfl

variable [EpsilonEquality F] [StabilityCmp F]

theorem loop_agree {lu lu' : LUInternal F} {f f' : Form F} {n r : ℕ} {cs : List ℕ} (h : lu.u = f.b)
    (h1 : Mat.luFor n cs r lu = .ok lu') (h2 : Mat.rowEchelonFor n cs r f = .ok f') : lu'.u = f'.b := by
  induction cs generalizing lu f r with
  | nil =>
    simp only [Mat.luFor, Mat.rowEchelonFor, Res.ok.injEq] at h1 h2
    rw [← h1, ← h2]; exact h
  | cons c cs ih =>
    rw [Mat.luFor] at h1
    rw [Mat.rowEchelonFor] at h2
    split at h1
    · rename_i hr
      rw [if_pos hr] at h2
      simp only [Res.ok.injEq] at h1 h2
      rw [← h1, ← h2]; exact h
    · rename_i hr
      rw [if_neg hr] at h2
      rw [bind_eq_ok] at h1 h2
      obtain ⟨o, ho, h1⟩ := h1
      obtain ⟨o', ho', h2⟩ := h2
      rw [h, ho'] at ho
      cases ho
      rcases o with _ | ⟨i, x⟩
      · exact ih h h1 h2
      · simp only [bind_eq_ok] at h1 h2
        obtain ⟨lu₁, e1, lu₂, e2, lu₃, e3, h1⟩ := h1
        obtain ⟨f₁, d1, s, ds, f₂, d2, f₃, d3, h2⟩ := h2
        exact ih (replace_agree (scaleRow_agree (permute_agree h e1 d1) ds e2 d2) e3 d3) h1 h2

/-- C67: for any coefficient type, without assumptions, in either build profile: when both return,
the `u` of `lu` is the `b` of `row_echelon`, entry by entry. -/
theorem C67_lu_row_echelon (M : Mat F) (d : LU F) (f : Form F) (hd : M.lu = .ok d)
    (hf : M.rowEchelon = .ok f) : d.u = f.b := by
  simp only [Mat.lu, bind_eq_ok, pure_eq] at hd
  obtain ⟨lu, hlu, he⟩ := hd
  cases he
  exact loop_agree rfl hlu hf

end agree

/-! ## Instances -/

section examples
attribute [local instance] Rational.lawful

/-- A matrix of rank 2 with a pivot in column 0 found below the diagonal, and a free column. -/
example : letI := Rational.field .debug
    letI := Rational.stability .debug
    (∃ A : Matrix (Fin 3) (Fin 3) ℚ, (ratMat 3 3 [0, 1, 2, 1, 1, 1, 1, 2, 3]).Represents A) ∧
    (do let f ← rref (ratMat 3 3 [0, 1, 2, 1, 1, 1, 1, 2, 3]); f.rank) = .ok 2 ∧
    (do let f ← rref (ratMat 3 3 [0, 1, 2, 1, 1, 1, 1, 2, 3]); f.computeKernel) =
      .ok [ratMat 3 1 [1, -2, 1]] :=
  ⟨⟨_, ratMat_represents 3 3 _ rfl (by decide) (by decide) (by decide)⟩, by decide +kernel, by decide +kernel⟩

example : letI := Rational.field .debug
    letI := Rational.stability .debug
    (ratMat 2 2 [0, 2, 3, 4]).lu = .ok ⟨ratMat 2 2 [0, 1, 1, 0], ratMat 2 2 [3, 0, 0, 2],
      ⟨[⟨1, 1⟩, ⟨4, 3⟩, ⟨0, 1⟩, ⟨1, 1⟩], 2, 2⟩⟩ := by decide +kernel

/-- An exact field with lawful pivoting. -/
example : ∃ (_ : EpsilonEquality ℚ) (_ : StabilityCmp ℚ),
    letI := exactField .debug ℚ
    letI := exactLawful ℚ
    LawfulPivot ℚ ℚ := by
  let e : EpsilonEquality ℚ := ⟨fun x y => .ok (decide (x = y))⟩
  let s : StabilityCmp ℚ := ⟨fun x y => .ok (some (compare |x| |y|))⟩
  let _ := exactField .debug ℚ
  let _ := exactLawful ℚ
  refine ⟨e, s, ⟨fun a _ => ?_, fun a b _ _ => ?_⟩⟩
  · change decide (a = 0) = true ↔ a = 0
    simp
  · refine ⟨compare |a| |b|, rfl, fun ha hb => ?_, fun ha hb => ?_⟩
    · have ha : a ≠ 0 := ha
      have hb : b = 0 := hb
      rw [compare_gt_iff_gt, hb, abs_zero]
      exact abs_pos.mpr ha
    · have ha : a = 0 := ha
      rw [Ne, compare_gt_iff_gt, ha, abs_zero]
      exact not_lt.mpr (abs_nonneg b)

end examples
end Verif
