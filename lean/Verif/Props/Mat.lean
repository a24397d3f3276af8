import Verif.Proofs.MatOps
import Verif.Proofs.LU
import Verif.Proofs.Num
import Mathlib.LinearAlgebra.Matrix.Permutation
import Mathlib.Algebra.Order.BigOperators.Ring.Finset

/-!
# Properties C50–C58: matrices

`M.Represents A` (Proofs/Represents.lean) says that the program's value `M` is the matrix
`A : Matrix (Fin n) (Fin m) K`.  `F` is any lawful coefficient type: `Rational` with `K = ℚ` (the
only panic allowed is `i64` overflow) or an exact field (no panic allowed).
-/

set_option linter.unusedSectionVars false

namespace Verif
open Res LawfulRField LinAlg

/-- A matrix whose entry vector has the length its dimensions promise; sizes are `usize`s. -/
def Mat.Shaped {F : Type} (M : Mat F) : Prop :=
  M.entries.length = M.rows * M.cols ∧ M.rows < 18446744073709551616 ∧
    M.cols < 18446744073709551616 ∧ M.entries.length < 18446744073709551616

/-- A rational matrix with integer entries, for examples. -/
def ratMat (rows cols : ℕ) (l : List Int) : Mat Rational := ⟨l.map fun x => ⟨x, 1⟩, rows, cols⟩

theorem ratMat_represents (rows cols : ℕ) (l : List Int) (h : l.length = rows * cols)
    (h1 : rows < 18446744073709551616) (h2 : cols < 18446744073709551616)
    (h3 : l.length < 18446744073709551616) :
    letI := Rational.field .debug
    letI := Rational.lawful
    (ratMat rows cols l).Represents (n := rows) (m := cols)
      (fun i j => ((l.getD ((i : ℕ) * cols + j) 0 : Int) : ℚ)) := by
  let _ := Rational.field .debug
  let _ := Rational.lawful
  have := Mat.represents_of (F := Rational) (rows := rows) (cols := cols)
    (entries := l.map fun x => ⟨x, 1⟩) h1 h2 (by simpa using h3) (by simpa using h) ?_
  · refine { this with entry := fun i j => ?_ }
    obtain ⟨x, hx, hw, hv⟩ := this.entry i j
    refine ⟨x, hx, hw, hv.trans ?_⟩
    have hlt : (i : ℕ) * cols + j < l.length := h ▸ rowMajor_lt i.2 j.2
    rw [List.getD_eq_getElem _ _ (by simpa using hlt), List.getD_eq_getElem _ _ hlt, List.getElem_map]
    change (_ : ℚ) / _ = _
    push_cast
    exact div_one _
  · intro x hx
    obtain ⟨y, _, rfl⟩ := List.mem_map.mp hx
    exact ⟨one_pos, fun _ => rfl⟩

section anyField
variable {F : Type} [RField F]

/-! ## C50 cells are independent -/

theorem Mat.Shaped.offset {M : Mat F} (h : M.Shaped) {r c : ℕ} (hr : r < M.rows) (hc : c < M.cols) :
    M.offset r c = .ok (r * M.cols + c) ∧ r * M.cols + c < M.entries.length := by
  have h1 := rowMajor_lt hr hc
  obtain ⟨h2, _, _, h3⟩ := h
  unfold Mat.offset Usize.mul Usize.add
  rw [Usize.norm_eq (by omega), bind_ok, Usize.norm_eq (by omega)]
  exact ⟨rfl, by omega⟩

theorem Mat.Shaped.get {M : Mat F} (h : M.Shaped) {r c : ℕ} (hr : r < M.rows) (hc : c < M.cols) :
    ∃ x, M.entries[r * M.cols + c]? = some x ∧ M.get r c = .ok x := by
  obtain ⟨h1, h2⟩ := h.offset hr hc
  refine ⟨M.entries[r * M.cols + c], List.getElem?_eq_getElem h2, ?_⟩
  rw [Mat.get, h1, bind_ok, List.getElem?_eq_getElem h2]; rfl

/-- C50, writing: in either build profile, writing the cell `(r, c)` of a well-formed matrix
succeeds, the cell then reads as the value written, and every other cell is unchanged. -/
theorem C50_write (M : Mat F) (hM : M.Shaped) (r c : ℕ) (hr : r < M.rows) (hc : c < M.cols) (x : F) :
    ∃ M', M.set r c x = .ok M' ∧ M'.Shaped ∧ M'.rows = M.rows ∧ M'.cols = M.cols ∧
      M'.get r c = .ok x ∧
      ∀ r' c', r' < M.rows → c' < M.cols → (r', c') ≠ (r, c) →
        ∃ y, M.get r' c' = .ok y ∧ M'.get r' c' = .ok y := by
  obtain ⟨h1, h2⟩ := hM.offset hr hc
  have hM' : Mat.Shaped { M with entries := M.entries.set (r * M.cols + c) x } := by
    obtain ⟨a, b, c, d⟩ := hM
    exact ⟨by simpa using a, b, c, by simpa using d⟩
  refine ⟨{ M with entries := M.entries.set (r * M.cols + c) x }, ?_, hM', rfl, rfl, ?_, ?_⟩
  · rw [Mat.set, h1, bind_ok, if_pos h2]; rfl
  · obtain ⟨y, hy, hy'⟩ := hM'.get (r := r) (c := c) hr hc
    rw [hy']
    dsimp only at hy
    rw [List.getElem?_set_self h2] at hy
    rw [Option.some.inj hy]
  · intro r' c' hr' hc' hne
    obtain ⟨y, hy, hy'⟩ := hM.get hr' hc'
    obtain ⟨z, hz, hz'⟩ := hM'.get (r := r') (c := c') hr' hc'
    refine ⟨y, hy', ?_⟩
    rw [hz']
    dsimp only at hz
    rw [List.getElem?_set_ne, hy] at hz
    · rw [Option.some.inj hz]
    · intro he
      obtain ⟨e1, e2⟩ := rowMajor_inj hc hc' he
      exact hne (by rw [e1, e2])

/-- C50, swapping: `swap` exchanges the two cells and leaves all others. -/
theorem C50_swap (M : Mat F) (hM : M.Shaped) (r c r' c' : ℕ) (hr : r < M.rows) (hc : c < M.cols)
    (hr' : r' < M.rows) (hc' : c' < M.cols) :
    ∃ M' x y, M.get r c = .ok x ∧ M.get r' c' = .ok y ∧ M.swap (r, c) (r', c') = .ok M' ∧ M'.Shaped ∧
      M'.rows = M.rows ∧ M'.cols = M.cols ∧ M'.get r c = .ok y ∧ M'.get r' c' = .ok x ∧
      ∀ i j, i < M.rows → j < M.cols → (i, j) ≠ (r, c) → (i, j) ≠ (r', c') →
        M'.get i j = M.get i j := by
  obtain ⟨h1, h2⟩ := hM.offset hr hc
  obtain ⟨h1', h2'⟩ := hM.offset hr' hc'
  obtain ⟨l, hl, hlen, hget⟩ := swapList_perm (l := M.entries) h2 h2'
  have hM' : Mat.Shaped { M with entries := l } := by
    obtain ⟨a, b, c, d⟩ := hM
    exact ⟨by simpa [hlen] using a, b, c, by simpa [hlen] using d⟩
  obtain ⟨x, hx, hx'⟩ := hM.get hr hc
  obtain ⟨y, hy, hy'⟩ := hM.get hr' hc'
  refine ⟨{ M with entries := l }, x, y, hx', hy', ?_, hM', rfl, rfl, ?_, ?_, ?_⟩
  · unfold Mat.swap
    rw [h1, bind_ok, h1', bind_ok, hl, bind_ok]; rfl
  · obtain ⟨z, hz, hz'⟩ := hM'.get (r := r) (c := c) hr hc
    dsimp only at hz
    rw [hget, Equiv.swap_apply_left, hy] at hz
    rw [hz', Option.some.inj hz]
  · obtain ⟨z, hz, hz'⟩ := hM'.get (r := r') (c := c') hr' hc'
    dsimp only at hz
    rw [hget, Equiv.swap_apply_right, hx] at hz
    rw [hz', Option.some.inj hz]
  · intro i j hi hj hn1 hn2
    obtain ⟨z, hz, hz'⟩ := hM'.get (r := i) (c := j) hi hj
    obtain ⟨w, hw, hw'⟩ := hM.get hi hj
    dsimp only at hz
    rw [hget, Equiv.swap_apply_of_ne_of_ne, hw] at hz
    · rw [hz', hw', Option.some.inj hz]
    · intro he
      obtain ⟨e1, e2⟩ := rowMajor_inj hj hc he
      exact hn1 (by rw [e1, e2])
    · intro he
      obtain ⟨e1, e2⟩ := rowMajor_inj hj hc' he
      exact hn2 (by rw [e1, e2])

/-- C50, out of bounds: with overflow checks, reading or writing at an index whose offset is past
the entry vector panics. -/
theorem C50_out_of_bounds (M : Mat F) (hb : RField.build F = .debug) (r c : ℕ)
    (h : M.entries.length ≤ r * M.cols + c) :
    ∃ p, (p = .overflowUsize ∨ p = .indexOutOfBounds) ∧ M.get r c = .panic p ∧
      ∀ x, M.set r c x = .panic p := by
  have key : (∃ p, p = Panic.overflowUsize ∧ M.offset r c = .panic p) ∨
      M.offset r c = .ok (r * M.cols + c) := by
    unfold Mat.offset Usize.mul Usize.add
    rw [hb]
    unfold Usize.norm
    by_cases h1 : r * M.cols < 18446744073709551616
    · rw [if_pos h1, bind_ok]
      by_cases h2 : r * M.cols + c < 18446744073709551616
      · rw [if_pos h2]; exact Or.inr rfl
      · rw [if_neg h2]; exact Or.inl ⟨_, rfl, rfl⟩
    · rw [if_neg h1]; exact Or.inl ⟨_, rfl, rfl⟩
  rcases key with ⟨p, hp, ho⟩ | ho
  · refine ⟨p, Or.inl hp, ?_, fun x => ?_⟩
    · rw [Mat.get, ho]; rfl
    · rw [Mat.set, ho]; rfl
  · refine ⟨.indexOutOfBounds, Or.inr rfl, ?_, fun x => ?_⟩
    · rw [Mat.get, ho, bind_ok, List.getElem?_eq_none h]
    · rw [Mat.set, ho, bind_ok, if_neg (by omega)]

/-- C50: `swap` panics if one of the two cells lies beyond the entries (in every build, as long as the
offsets fit into a `usize`). -/
theorem C50_swap_out (M : Mat F) (r c r' c' : ℕ) (h1 : r * M.cols + c < 18446744073709551616)
    (h2 : r' * M.cols + c' < 18446744073709551616)
    (h : M.entries.length ≤ r * M.cols + c ∨ M.entries.length ≤ r' * M.cols + c') :
    M.swap (r, c) (r', c') = .panic .indexOutOfBounds := by
  unfold Mat.swap Mat.offset Usize.mul Usize.add
  dsimp only
  rw [Usize.norm_eq (by omega), bind_ok, Usize.norm_eq h1, bind_ok, Usize.norm_eq (by omega), bind_ok,
    Usize.norm_eq h2, bind_ok, Mat.swapList]
  rcases h with h | h
  · rw [List.getElem?_eq_none h]; rfl
  · rw [List.getElem?_eq_none h]
    cases M.entries[r * M.cols + c]? <;> rfl

/-- Without overflow checks the offset wraps around: an index far outside a two-column matrix reads
its first cell. -/
theorem C50_release_wraps :
    letI := Rational.field .release
    (ratMat 2 2 [1, 2, 3, 4]).get 9223372036854775808 0 = (ratMat 2 2 [1, 2, 3, 4]).get 0 0 := by
  decide

example : (ratMat 2 3 [1, 2, 3, 4, 5, 6]).Shaped := by
  refine ⟨by decide, by decide, by decide, by decide⟩

end anyField

/-! ## C51 constructors -/

variable {F : Type} [RField F] {K : Type} [Field K] [LawfulRField F K]

/-- C51: `identity(n)` is the identity matrix. -/
theorem C51_identity (n : ℕ) (h : n < 18446744073709551616) (h' : n * n < 18446744073709551616) :
    (Mat.identity n : Mat F).Represents (1 : Matrix (Fin n) (Fin n) K) :=
  (Mat.is_identity h h').represents fun i j => by rw [Matrix.one_apply]; simp [Fin.ext_iff]

/-- C51: `zero(n, m)` is the zero matrix. -/
theorem C51_zero (n m : ℕ) (h : n < 18446744073709551616) (h' : m < 18446744073709551616)
    (h'' : n * m < 18446744073709551616) :
    (Mat.zero n m : Mat F).Represents (0 : Matrix (Fin n) (Fin m) K) :=
  (Mat.is_zero h h' h'').represents fun _ _ => rfl

/-- C51: `e(k, n)` is the `k`-th standard basis vector. -/
theorem C51_e (n : ℕ) (k : Fin n) (h : n < 18446744073709551616) :
    (Mat.e k n : Mat F).RepresentsVec (Pi.single k (1 : K) : Fin n → K) :=
  (Mat.is_e h).represents fun i _ => by simp [Matrix.of_apply, Pi.single_apply, Fin.ext_iff]

/-- C51: `from_col_vectors` places the vectors in the columns. -/
theorem C51_from_col_vectors (n : ℕ) (vs : List (Mat F)) (v : Fin vs.length → Fin n → K)
    (hne : vs ≠ []) (hv : ∀ k, (vs.get k).RepresentsVec (v k))
    (hl : vs.length < 18446744073709551616) (hnl : n * vs.length < 18446744073709551616) :
    Spec (fun _ => False) (Mat.fromColVectors vs)
      (fun M => M.Represents (Matrix.of fun (i : Fin n) (k : Fin vs.length) => v k i)) := by
  have hpos : 0 < vs.length := List.length_pos_iff.mpr hne
  have hr : ∀ k (hk : k < vs.length), Mat.nth vs k = .ok vs[k] := by
    intro k hk; unfold Mat.nth; rw [List.getElem?_eq_getElem hk]
  have hrows : vs[0].rows = n := (hv ⟨0, hpos⟩).rows
  unfold Mat.fromColVectors
  rw [hr 0 hpos, bind_ok, hrows]
  refine (Mat.is_of_box_mapM (a := fun i k => if h : i < n ∧ k < vs.length then v ⟨k, h.2⟩ ⟨i, h.1⟩ else 0)
    (hv ⟨0, hpos⟩).rows_lt hl hnl fun i k hi hk => ?_).imp fun M hM => hM.represents fun i k => ?_
  · dsimp only
    rw [hr k hk, bind_ok, dif_pos ⟨hi, hk⟩]
    have := (hv ⟨k, hk⟩).is.get_spec (E := fun _ => False) hi (by omega : 0 < 1)
    rw [matExt_of_lt _ hi (by omega : 0 < 1)] at this
    exact this
  · rw [dif_pos ⟨i.2, k.2⟩]; rfl

/-- C51: `from_row_vectors` places the vectors in the rows. -/
theorem C51_from_row_vectors (n : ℕ) (vs : List (Mat F)) (v : Fin vs.length → Fin n → K)
    (hne : vs ≠ []) (hv : ∀ k, (vs.get k).RepresentsVec (v k))
    (hl : vs.length < 18446744073709551616) (hnl : vs.length * n < 18446744073709551616) :
    Spec (fun _ => False) (Mat.fromRowVectors vs) (fun M => M.Represents (Matrix.of v)) := by
  have hpos : 0 < vs.length := List.length_pos_iff.mpr hne
  have hr : ∀ k (hk : k < vs.length), Mat.nth vs k = .ok vs[k] := by
    intro k hk; unfold Mat.nth; rw [List.getElem?_eq_getElem hk]
  have hrows : vs[0].rows = n := (hv ⟨0, hpos⟩).rows
  unfold Mat.fromRowVectors
  rw [hr 0 hpos, bind_ok, hrows]
  refine (Mat.is_of_box_mapM (a := fun k i => if h : i < n ∧ k < vs.length then v ⟨k, h.2⟩ ⟨i, h.1⟩ else 0)
    hl (hv ⟨0, hpos⟩).rows_lt hnl fun k i hk hi => ?_).imp fun M hM => hM.represents fun k i => ?_
  · dsimp only
    rw [hr k hk, bind_ok, dif_pos ⟨hi, hk⟩]
    have := (hv ⟨k, hk⟩).is.get_spec (E := fun _ => False) hi (by omega : 0 < 1)
    rw [matExt_of_lt _ hi (by omega : 0 < 1)] at this
    exact this
  · rw [dif_pos ⟨i.2, k.2⟩]; rfl

/-- C51: on an empty list both constructors panic. -/
theorem C51_from_vectors_empty : Mat.fromColVectors ([] : List (Mat F)) = .panic .indexOutOfBounds ∧
    Mat.fromRowVectors ([] : List (Mat F)) = .panic .indexOutOfBounds := ⟨rfl, rfl⟩

/-- C51: `permutation_from_vec` of the vector `[σ 0, …, σ (n-1)]` is the permutation matrix of `σ`:
row `i` has its one in column `σ i`. -/
theorem C51_permutation_from_vec (n : ℕ) (σ : Equiv.Perm (Fin n)) (h : n < 18446744073709551616)
    (h' : n * n < 18446744073709551616) :
    (Mat.permutationFromVec (List.ofFn fun i => (σ i : ℕ)) : Mat F).Represents (σ.permMatrix K) := by
  refine (Mat.is_permutationFromVec (n := n) (π := fun i => if h : i < n then (σ ⟨i, h⟩ : ℕ) else 0)
    (by simp) (fun i hi => ?_) h h').represents fun i j => ?_
  · rw [List.getElem?_ofFn, dif_pos hi, dif_pos hi]
  · rw [dif_pos i.2]
    simp only [Equiv.Perm.permMatrix, PEquiv.toMatrix_apply, Equiv.toPEquiv_apply, Option.mem_def,
      Option.some.injEq, Fin.ext_iff]

/-! ## C52 operators -/

/-- C52: `+` is matrix addition. -/
theorem C52_add {n m : ℕ} (M N : Mat F) (A B : Matrix (Fin n) (Fin m) K) (hM : M.Represents A)
    (hN : N.Represents B) : Spec (allowed F) (M.add N) (fun R => R.Represents (A + B)) :=
  (hM.is.add hN.is).imp fun _ hR => hR.represents fun i j => by simp [matExt_fin]

/-- C52: scalar multiplication, `*`, `*=` and `scale`. -/
theorem C52_smul {n m : ℕ} (M : Mat F) (A : Matrix (Fin n) (Fin m) K) (hM : M.Represents A) (s : F)
    (hs : wf s) : Spec (allowed F) (M.smul s) (fun R => R.Represents ((val s : K) • A)) ∧
      Spec (allowed F) (M.scale s) (fun R => R.Represents ((val s : K) • A)) :=
  ⟨(hM.is.smul hs).imp fun _ hR => hR.represents fun i j => by simp [matExt_fin, mul_comm],
   (hM.is.scale hs).imp fun _ hR => hR.represents fun i j => by simp [matExt_fin, mul_comm]⟩

theorem sum_matExt {n m q : ℕ} (A : Matrix (Fin n) (Fin m) K) (B : Matrix (Fin m) (Fin q) K) (i : Fin n)
    (j : Fin q) : ∑ k ∈ Finset.range m, matExt A i k * matExt B k j = (A * B) i j := by
  rw [Matrix.mul_apply, Finset.sum_range]
  exact Finset.sum_congr rfl fun k _ => by rw [matExt_fin, matExt_fin]

/-- C52: `*` is matrix multiplication. -/
theorem C52_mul {n m q : ℕ} (M N : Mat F) (A : Matrix (Fin n) (Fin m) K) (B : Matrix (Fin m) (Fin q) K)
    (hM : M.Represents A) (hN : N.Represents B) (hnq : n * q < 18446744073709551616) :
    Spec (allowed F) (M.mul N) (fun R => R.Represents (A * B)) :=
  (hM.is.mul hN.is hnq).imp fun _ hR => hR.represents fun i j => sum_matExt A B i j

/-- C52: incompatible dimensions panic, for any coefficients and entries. -/
theorem C52_incompatible (M N : Mat F) :
    ((M.rows ≠ N.rows ∨ M.cols ≠ N.cols) →
      M.add N = .panic (.explicit "tried to add matrix with incompatible dimensions.")) ∧
    (M.cols ≠ N.rows →
      M.mul N = .panic (.explicit "tried to multiply matrices with incompatible dimensions.")) := by
  refine ⟨fun h => ?_, fun h => ?_⟩
  · unfold Mat.add
    rw [if_pos]
    rcases h with h | h <;> simp [h]
  · unfold Mat.mul
    rw [if_pos h]

/-! ## C53 transpose -/

/-- C53: `transpose` is the transpose. -/
theorem C53_transpose {n m : ℕ} (M : Mat F) (A : Matrix (Fin n) (Fin m) K) (hM : M.Represents A) :
    Spec (fun _ => False) M.transpose (fun R => R.Represents A.transpose) :=
  hM.is.transpose.imp fun _ hR => hR.represents fun i j => by simp [matExt_fin]

theorem mapM_ok {α β : Type} {l : List α} {f : α → Res β} {g : α → β} (h : ∀ x ∈ l, f x = .ok (g x)) :
    l.mapM f = .ok (l.map g) := by
  induction l with
  | nil => rfl
  | cons x xs ih =>
    rw [List.mapM_cons, h x (by simp), bind_ok, ih fun y hy => h y (by simp [hy]), bind_ok]; rfl

theorem Mat.Shaped.transpose {F : Type} [RField F] {M : Mat F} (hM : M.Shaped) :
    ∃ T, M.transpose = .ok T ∧ T.Shaped ∧ T.rows = M.cols ∧ T.cols = M.rows ∧
      ∀ r c, r < M.rows → c < M.cols → T.get c r = M.get r c := by
  obtain ⟨h1, h2, h3, h4⟩ := id hM
  by_cases hne : M.entries = []
  · have hz : M.rows * M.cols = 0 := by rw [← h1, hne]; rfl
    refine ⟨⟨[], M.cols, M.rows⟩, ?_, ⟨by simp [Nat.mul_comm M.cols, hz], h3, h2, by simp⟩, rfl, rfl, ?_⟩
    · unfold Mat.transpose
      have : boxIter M.cols M.rows = [] := by
        rw [← List.length_eq_zero_iff, boxIter_length, Nat.mul_comm, hz]
      rw [this]; rfl
    · intro r c hr hc
      rcases Nat.mul_eq_zero.mp hz with h | h <;> omega
  · obtain ⟨x0, hx0⟩ := List.exists_mem_of_ne_nil _ hne
    let g : ℕ × ℕ → F := fun p => M.entries.getD (p.2 * M.cols + p.1) x0
    have hg : ∀ r c, r < M.rows → c < M.cols → M.get r c = .ok (g (c, r)) := by
      intro r c hr hc
      obtain ⟨x, hx, hx'⟩ := hM.get hr hc
      rw [hx']
      simp [g, List.getD_eq_getElem?_getD, hx]
    have hT : Mat.Shaped (⟨(boxIter M.cols M.rows).map g, M.cols, M.rows⟩ : Mat F) :=
      ⟨by simp [boxIter_length], h3, h2, by
        rw [List.length_map, boxIter_length, Nat.mul_comm, ← h1]; exact h4⟩
    refine ⟨⟨(boxIter M.cols M.rows).map g, M.cols, M.rows⟩, ?_, hT, rfl, rfl, ?_⟩
    · unfold Mat.transpose
      rw [mapM_ok (g := g)]
      · rfl
      · rintro ⟨c, r⟩ hp
        rw [mem_boxIter] at hp
        exact hg r c hp.2 hp.1
    · intro r c hr hc
      obtain ⟨x, hx, hx'⟩ := hT.get (r := c) (c := r) hc hr
      rw [hx', hg r c hr hc]
      dsimp only at hx
      rw [List.getElem?_map, boxIter_get hc hr] at hx
      rw [← Option.some.inj hx]

/-- C53: for any entries and in either build profile, `transpose` swaps the dimensions, moves entry
`(r, c)` to `(c, r)`, and applied twice gives back the same value. -/
theorem C53_involution {F : Type} [RField F] (M : Mat F) (hM : M.Shaped) :
    ∃ T, M.transpose = .ok T ∧ T.rows = M.cols ∧ T.cols = M.rows ∧
      (∀ r c, r < M.rows → c < M.cols → T.get c r = M.get r c) ∧ T.transpose = .ok M := by
  obtain ⟨T, h1, h2, h3, h4, h5⟩ := hM.transpose
  obtain ⟨T', h1', h2', h3', h4', h5'⟩ := h2.transpose
  refine ⟨T, h1, h3, h4, h5, ?_⟩
  rw [h1']
  have hr : T'.rows = M.rows := h3'.trans h4
  have hc : T'.cols = M.cols := h4'.trans h3
  have hlen : T'.entries.length = M.entries.length := by rw [h2'.1, hM.1, hr, hc]
  have he : T'.entries = M.entries := by
    apply List.ext_getElem?
    intro k
    by_cases hk : k < M.rows * M.cols
    · obtain ⟨e1, e2, e3⟩ := rowMajor_divMod hk
      obtain ⟨x, hx, hx'⟩ := hM.get e1 e2
      obtain ⟨y, hy, hy'⟩ := h2'.get (r := k / M.cols) (c := k % M.cols) (by rw [hr]; exact e1)
        (by rw [hc]; exact e2)
      rw [h5' _ _ (by rw [h3]; exact e2) (by rw [h4]; exact e1), h5 _ _ e1 e2, hx'] at hy'
      rw [hc, e3] at hy
      rw [e3] at hx
      rw [hx, hy]
      cases hy'
      rfl
    · rw [List.getElem?_eq_none (by rw [hlen, hM.1]; omega), List.getElem?_eq_none (by rw [hM.1]; omega)]
  cases T'; cases M
  simp only at hr hc he
  rw [hr, hc, he]

/-! ## C54 elementary matrices -/

section elementary
variable {n m : ℕ} (M : Mat F) (A : Matrix (Fin n) (Fin m) K) (hM : M.Represents A)
  (hn : n * n < 18446744073709551616)
include hM hn

/-- C54, scaling: multiplying by `scale_mat(n, i, s)` and `scale_row(i, s)` both multiply row `i`
by `s`. -/
theorem C54_scale (i : Fin n) (s : F) (hs : wf s) :
    Spec (allowed F) ((Mat.scaleMat n i s).mul M) (fun R => R.Represents (A.updateRow i (val s • A i))) ∧
    Spec (allowed F) (M.scaleRow i s) (fun R => R.Represents (A.updateRow i (val s • A i))) := by
  constructor
  · refine ((Mat.is_scaleMat hM.rows_lt hn hs).mul hM.is hM.len_lt).imp fun R hR =>
      hR.represents fun r c => ?_
    rw [Finset.sum_eq_single (r : ℕ)]
    · by_cases h : r = i
      · subst h; simp [matExt_fin]
      · have : (r : ℕ) ≠ i := fun h' => h (Fin.ext h')
        simp [h, this, matExt_fin]
    · intro k _ hk
      rw [if_neg (fun h => hk h.1.symm), if_neg (fun h => hk h.symm), zero_mul]
    · intro h; exact absurd (Finset.mem_range.mpr r.2) h
  · refine (hM.is.scaleRow i.2 hs).imp fun R hR => hR.represents fun r c => ?_
    by_cases h : r = i
    · subst h; simp [matExt_fin]
    · have : (r : ℕ) ≠ i := fun h' => h (Fin.ext h')
      simp [h, this, matExt_fin]

/-- C54, permutation: multiplying by `permutation(n, s, t)` and `permute_rows(s, t)` both exchange
the rows `s` and `t`. -/
theorem C54_permutation (s t : Fin n) :
    Spec (allowed F) ((Mat.permutation n s t).mul M)
      (fun R => R.Represents (A.submatrix (Equiv.swap s t) id)) ∧
    Spec (allowed F) (M.permuteRows s t) (fun R => R.Represents (A.submatrix (Equiv.swap s t) id)) := by
  constructor
  · refine ((Mat.is_permutation hM.rows_lt hn).mul hM.is hM.len_lt).imp fun R hR =>
      hR.represents fun r c => ?_
    rw [Finset.sum_eq_single ((Equiv.swap s t r : Fin n) : ℕ)]
    · rw [if_pos (swap_val s t r).symm, one_mul, matExt_fin]; rfl
    · intro k _ hk
      rw [if_neg (fun h => hk (h.symm.trans (swap_val s t r).symm)), zero_mul]
    · intro h; exact absurd (Finset.mem_range.mpr (Fin.is_lt _)) h
  · refine (hM.is.permuteRows s.2 t.2).imp fun R hR => hR.represents fun r c => ?_
    rw [← swap_val, matExt_fin]; rfl

/-- C54, replacement, for distinct rows: multiplying by `replacement(n, s, t, x)` and
`replace_row(s, t, x)` both add `x` times row `s` to row `t`. Missing: `s = t`, where they differ
(`C54_refuted`). -/
theorem C54_replacement_partial (s t : Fin n) (hst : s ≠ t) (x : F) (hx : wf x) :
    Spec (allowed F) ((Mat.replacement n s t x).mul M)
      (fun R => R.Represents (A.updateRow t (A t + val x • A s))) ∧
    Spec (allowed F) (M.replaceRow s t x)
      (fun R => R.Represents (A.updateRow t (A t + val x • A s))) := by
  have hne : (s : ℕ) ≠ t := fun h => hst (Fin.ext h)
  constructor
  · refine ((Mat.is_replacement hM.rows_lt hn hx).mul hM.is hM.len_lt).imp fun R hR =>
      hR.represents fun r c => ?_
    by_cases h : r = t
    · subst h
      rw [Finset.sum_congr rfl (g := fun k => (if (r : ℕ) = k then matExt A r c else 0) +
        (if (s : ℕ) = k then val x * matExt A s c else 0))]
      · rw [Finset.sum_add_distrib, Finset.sum_ite_eq, Finset.sum_ite_eq]
        simp [matExt_fin]
      · intro k _
        by_cases h1 : k = s
        · subst h1
          simp [Ne.symm hne]
        · by_cases h2 : (r : ℕ) = k
          · rw [← h2]; simp [hne, Ne.symm hne]
          · simp [h1, h2, Ne.symm h1]
    · have : (r : ℕ) ≠ t := fun h' => h (Fin.ext h')
      rw [Finset.sum_eq_single (r : ℕ)]
      · simp [h, this, matExt_fin]
      · intro k _ hk
        rw [if_neg (fun h => this h.2), if_neg (fun h => hk h.symm), zero_mul]
      · intro h; exact absurd (Finset.mem_range.mpr r.2) h
  · refine (hM.is.replaceRow s.2 t.2 hx).imp fun R hR => hR.represents fun r c => ?_
    by_cases h : r = t
    · subst h; simp [matExt_fin, mul_comm]
    · have : (r : ℕ) ≠ t := fun h' => h (Fin.ext h')
      simp [h, this, matExt_fin]

end elementary

/-- C54 is false for a row replaced by itself: the matrix `replacement(1, 0, 0, 2)` multiplies row 0
by 2, while `replace_row(0, 0, 2)` adds twice the row to itself. -/
theorem C54_refuted :
    letI := Rational.field .debug
    (Mat.replacement 1 0 0 (⟨2, 1⟩ : Rational)).mul (ratMat 1 1 [3]) = .ok (ratMat 1 1 [6]) ∧
    (ratMat 1 1 [3]).replaceRow 0 0 ⟨2, 1⟩ = .ok (ratMat 1 1 [9]) := by
  decide

/-! ## C55 row and column iterators -/

/-- C55, reading: `get_row_iter`, `get_row`, `get_col_iter`, `get_col` give the entries of the row
or column in order. -/
theorem C55_read {n m : ℕ} (M : Mat F) (A : Matrix (Fin n) (Fin m) K) (hM : M.Represents A) :
    (∀ r : Fin n, ∃ l, M.getRowIter r = .ok l ∧ l.length = m ∧
      (∀ j : Fin m, ∃ x, l[(j : ℕ)]? = some x ∧ M.get r j = .ok x) ∧
      Spec (fun _ => False) (M.getRow r) (fun v => v.RepresentsVec (A r))) ∧
    (∀ c : Fin m, ∃ l, M.getColIter c = .ok l ∧ l.length = n ∧
      (∀ i : Fin n, ∃ x, l[(i : ℕ)]? = some x ∧ M.get i c = .ok x) ∧
      Spec (fun _ => False) (M.getCol c) (fun v => v.RepresentsVec fun i => A i c)) := by
  constructor
  · intro r
    obtain ⟨l, hl, hlen, hx⟩ := hM.is.getRowIter r.2
    refine ⟨l, hl, hlen, fun j => ?_, ?_⟩
    · obtain ⟨x, h1, h2, _⟩ := hx j j.2
      refine ⟨x, h1, ?_⟩
      rw [Mat.get, hM.is.offset r.2 j.2, bind_ok, h2]; rfl
    · rw [Mat.getRow, hl, bind_ok]
      refine ⟨hlen, rfl, by simp [Mat.fromIter, hlen], hM.cols_lt, by norm_num, ?_, fun j k => ?_⟩
      · have := hM.cols_lt; omega
      · obtain ⟨x, h1, _, h2, h3⟩ := hx j j.2
        have hk : (k : ℕ) = 0 := by omega
        refine ⟨x, by simpa [Mat.fromIter, hk] using h1, h2, ?_⟩
        rw [h3, matExt_fin]; rfl
  · intro c
    have h1 := hM.is.getColIter (E := fun _ => False) c.2
    cases hc : M.getColIter c with
    | ok l =>
      rw [hc] at h1
      obtain ⟨hlen, hx⟩ := h1
      refine ⟨l, rfl, hlen, fun i => ?_, ?_⟩
      · obtain ⟨x, e1, e2, _⟩ := hx i i.2
        exact ⟨x, e1, e2⟩
      · exact (hM.is.getCol c.2).imp fun v hv => hv.represents fun i _ => by
          rw [matExt_fin]; rfl
    | panic p => rw [hc] at h1; exact h1.elim
    | diverge => rw [hc] at h1; exact h1.elim

/-- C55, writing rows: `get_row_iter_mut(r)` yields the cells `(r, 0), …, (r, cols - 1)`, in either
build profile. -/
theorem C55_row_mut {F : Type} [RField F] (M : Mat F) (hM : M.Shaped) (r : ℕ) (hr : r < M.rows) :
    M.getRowIterMut r = .ok ((List.range M.cols).map fun c => r * M.cols + c) := by
  obtain ⟨h1, h2, h3, h4⟩ := hM
  have e1 : (r + 1) * M.cols ≤ M.rows * M.cols := Nat.mul_le_mul_right _ hr
  have e2 : (r + 1) * M.cols = r * M.cols + M.cols := by ring
  unfold Mat.getRowIterMut Usize.mul Usize.add
  rw [Usize.norm_eq (by omega), bind_ok, Usize.norm_eq (by omega), bind_ok, Usize.norm_eq (by omega),
    bind_ok, if_pos (by omega)]
  have e3 : (r + 1) * M.cols - r * M.cols = M.cols := by omega
  rw [e3, List.range'_eq_map_range]
  rfl

/-- C55, rows that do not exist: `get_row_iter`, `get_row_iter_mut` and `get_row` panic, unless the
matrix has no columns. -/
theorem C55_row_out {F : Type} [RField F] (M : Mat F) (hM : M.Shaped) (r : ℕ) (hr : M.rows ≤ r)
    (hc : M.cols ≠ 0) :
    ((r + 1) * M.cols < 2 ^ 64 → M.getRowIterMut r = .panic .indexOutOfBounds ∧
      M.getRowIter r = .panic .indexOutOfBounds ∧ M.getRow r = .panic .indexOutOfBounds) ∧
    (2 ^ 64 ≤ (r + 1) * M.cols → RField.build F = .debug → M.getRowIterMut r = .panic .overflowUsize ∧
      M.getRowIter r = .panic .overflowUsize ∧ M.getRow r = .panic .overflowUsize) := by
  obtain ⟨h1, h2, h3, h4⟩ := hM
  have e1 : M.rows * M.cols ≤ r * M.cols := Nat.mul_le_mul_right _ hr
  have e2 : (r + 1) * M.cols = r * M.cols + M.cols := by ring
  have e3 : r + 1 ≤ (r + 1) * M.cols := Nat.le_mul_of_pos_right _ (by omega)
  have key : ∀ {α : Type} (k : ℕ → ℕ → Res α),
      ((r + 1) * M.cols < 2 ^ 64 → (do
        let i ← Usize.mul (RField.build F) r M.cols
        let r1 ← Usize.add (RField.build F) r 1
        let j ← Usize.mul (RField.build F) r1 M.cols
        k i j) = k (r * M.cols) ((r + 1) * M.cols)) ∧
      (2 ^ 64 ≤ (r + 1) * M.cols → RField.build F = .debug → (do
        let i ← Usize.mul (RField.build F) r M.cols
        let r1 ← Usize.add (RField.build F) r 1
        let j ← Usize.mul (RField.build F) r1 M.cols
        k i j) = .panic .overflowUsize) := by
    intro α k
    unfold Usize.mul Usize.add
    refine ⟨fun h => ?_, fun h hb => ?_⟩
    · rw [Usize.norm_eq (by omega), bind_ok, Usize.norm_eq (by omega), bind_ok,
        Usize.norm_eq (by omega), bind_ok]
    · rw [hb]
      by_cases h5 : r * M.cols < 18446744073709551616
      · rw [Usize.norm_eq h5, bind_ok]
        by_cases h6 : r + 1 < 18446744073709551616
        · rw [Usize.norm_eq h6, bind_ok]
          unfold Usize.norm
          rw [if_neg (by omega)]; rfl
        · unfold Usize.norm
          rw [if_neg (by omega)]; rfl
      · unfold Usize.norm
        rw [if_neg (by omega)]; rfl
  have hlast : ¬ (r * M.cols ≤ (r + 1) * M.cols ∧ (r + 1) * M.cols ≤ M.entries.length) := by omega
  have hrow : ∀ p, M.getRowIter r = .panic p → M.getRow r = .panic p := fun p h => by
    unfold Mat.getRow; rw [h]; rfl
  refine ⟨fun h => ?_, fun h hb => ?_⟩
  · have k1 : M.getRowIterMut r = .panic .indexOutOfBounds := by
      unfold Mat.getRowIterMut; rw [(key _).1 h, if_neg hlast]
    have k2 : M.getRowIter r = .panic .indexOutOfBounds := by
      unfold Mat.getRowIter; rw [(key _).1 h, if_neg hlast]
    exact ⟨k1, k2, hrow _ k2⟩
  · have k1 : M.getRowIterMut r = .panic .overflowUsize := by
      unfold Mat.getRowIterMut; exact (key _).2 h hb
    have k2 : M.getRowIter r = .panic .overflowUsize := by
      unfold Mat.getRowIter; exact (key _).2 h hb
    exact ⟨k1, k2, hrow _ k2⟩

/-- C55 is false for `get_col_iter_mut` on a matrix that is not square: on a 2 x 3 matrix, column 0
yields the cells at offsets 0, 2, 4 instead of 0, 3. -/
theorem C55_refuted :
    (ratMat 2 3 [1, 2, 3, 4, 5, 6]).getColIterMut 0 = .ok [0, 2, 4] := by decide

/-- C55, writing columns, on square matrices: `get_col_iter_mut(c)` yields the cells
`(0, c), …, (n - 1, c)`. Missing: matrices that are not square, where it is wrong (`C55_refuted`). -/
theorem C55_col_mut_partial {F : Type} [RField F] (M : Mat F) (hM : M.Shaped) (hsq : M.rows = M.cols)
    (c : ℕ) (hc : c < M.cols) :
    M.getColIterMut c = .ok ((List.range M.rows).map fun r => r * M.cols + c) := by
  obtain ⟨h1, -, -, -⟩ := hM
  unfold Mat.getColIterMut
  rw [if_neg (by omega), h1, hsq, Nat.mul_div_cancel _ (by omega)]
  exact mapM_ok fun k _ => if_pos hc

/-! ## C56 dot and frobenius_norm -/

/-- C56: `dot` of two vectors is the inner product. -/
theorem C56_dot {n : ℕ} (M N : Mat F) (v w : Fin n → K) (hM : M.RepresentsVec v)
    (hN : N.RepresentsVec w) : Spec (allowed F) (M.dot N) (fun c => wf c ∧ val c = v ⬝ᵥ w) := by
  refine (hM.is.dot hN.is).imp fun c hc => ⟨hc.1, ?_⟩
  rw [hc.2, dotProduct, Finset.sum_range]
  refine Finset.sum_congr rfl fun i _ => ?_
  rw [Finset.sum_range_one]
  have h1 := matExt_fin (Matrix.of fun i (_ : Fin 1) => v i) i 0
  have h2 := matExt_fin (Matrix.of fun i (_ : Fin 1) => w i) i 0
  exact congrArg₂ (· * ·) h1 h2

/-- C56: `frobenius_norm` is the sum of the squares of the entries. -/
theorem C56_frobenius_norm {n m : ℕ} (M : Mat F) (A : Matrix (Fin n) (Fin m) K) (hM : M.Represents A) :
    Spec (allowed F) M.frobeniusNorm (fun c => wf c ∧ val c = ∑ i, ∑ j, A i j ^ 2) := by
  refine hM.is.frobeniusNorm.imp fun c hc => ⟨hc.1, ?_⟩
  rw [hc.2, Finset.sum_range]
  refine Finset.sum_congr rfl fun i _ => ?_
  rw [Finset.sum_range]
  refine Finset.sum_congr rfl fun j _ => ?_
  rw [matExt_fin, sq]

/-! ## C57 epsilon_equals -/

/-- C57: on rational matrices of equal dimensions `epsilon_equals` is equality of the values. -/
theorem C57_epsilon_equals {n m : ℕ} (M N : Mat Rational) (A B : Matrix (Fin n) (Fin m) ℚ) :
    letI := Rational.field .debug
    letI := Rational.lawful
    M.Represents A → N.Represents B →
    Spec IsOverflow (M.epsilonEquals N) (fun b => b = true ↔ A = B) := by
  let _ := Rational.field .debug
  let _ := Rational.lawful
  let _ := Rational.stability .debug
  intro hM hN
  have := Rational.lawfulPivot
  unfold Mat.epsilonEquals
  refine Spec.bind (LawfulRField.sub_spec (F := Rational) _ _ wf_zero wf_one) fun s hs => ?_
  refine Spec.bind (hN.is.smul hs.1) fun o ho => ?_
  refine Spec.bind (hM.is.add ho) fun d hd => ?_
  refine Spec.bind hd.frobeniusNorm fun x hx => ?_
  refine (LawfulPivot.eps_zero (F := Rational) x hx.1).imp fun b hb => hb.trans ?_
  rw [hx.2, hs.2, val_zero, val_one,
    Finset.sum_eq_zero_iff_of_nonneg (fun i _ => Finset.sum_nonneg fun j _ => mul_self_nonneg _)]
  constructor
  · intro h
    ext i j
    have h1 := h i (Finset.mem_range.mpr i.2)
    rw [Finset.sum_eq_zero_iff_of_nonneg fun j _ => mul_self_nonneg _] at h1
    have h2 := mul_self_eq_zero.mp (h1 j (Finset.mem_range.mpr j.2))
    rw [matExt_fin, matExt_fin] at h2
    linarith
  · rintro rfl i _
    refine Finset.sum_eq_zero fun j _ => ?_
    ring

/-! ## C58 triangularity -/

/-- C58: the triangularity tests. -/
theorem C58_triangular {n m : ℕ} (M : Mat F) (A : Matrix (Fin n) (Fin m) K) (hM : M.Represents A) :
    Spec (allowed F) M.isUpperTriangular
      (fun b => b = true ↔ ∀ (i : Fin n) (j : Fin m), (j : ℕ) < i → A i j = 0) ∧
    Spec (allowed F) M.isLowerTriangular
      (fun b => b = true ↔ ∀ (i : Fin n) (j : Fin m), (i : ℕ) < j → A i j = 0) := by
  refine ⟨hM.is.isUpperTriangular.imp fun b hb => hb.trans ?_,
    hM.is.isLowerTriangular.imp fun b hb => hb.trans ?_⟩
  · exact ⟨fun h i j hij => by rw [← matExt_fin A]; exact h i j i.2 j.2 hij,
      fun h i j hi hj hij => by rw [matExt_of_lt A hi hj]; exact h _ _ hij⟩
  · exact ⟨fun h i j hij => by rw [← matExt_fin A]; exact h i j i.2 j.2 hij,
      fun h i j hi hj hij => by rw [matExt_of_lt A hi hj]; exact h _ _ hij⟩

/-! ## Instances: the hypotheses hold for concrete matrices -/

section examples
attribute [local instance] Rational.lawful

/-- A concrete 2 x 2 product: the hypotheses of `C52_mul` hold. -/
example : letI := Rational.field .debug
    ∃ A B : Matrix (Fin 2) (Fin 2) ℚ, (ratMat 2 2 [1, 2, 3, 4]).Represents A ∧
      (ratMat 2 2 [0, 1, 1, 0]).Represents B ∧
      (ratMat 2 2 [1, 2, 3, 4]).mul (ratMat 2 2 [0, 1, 1, 0]) = .ok (ratMat 2 2 [2, 1, 4, 3]) :=
  ⟨_, _, ratMat_represents 2 2 _ rfl (by decide) (by decide) (by decide),
    ratMat_represents 2 2 _ rfl (by decide) (by decide) (by decide), by decide⟩

/-- Concrete vectors for `C51_from_col_vectors` and `C56_dot`. -/
example : letI := Rational.field .debug
    ∃ v w : Fin 2 → ℚ, (ratMat 2 1 [1, 2]).RepresentsVec v ∧ (ratMat 2 1 [3, 4]).RepresentsVec w ∧
      (ratMat 2 1 [1, 2]).dot (ratMat 2 1 [3, 4]) = .ok ⟨11, 1⟩ ∧
      Mat.fromColVectors [ratMat 2 1 [1, 2], ratMat 2 1 [3, 4]] = .ok (ratMat 2 2 [1, 3, 2, 4]) := by
  let _ := Rational.field .debug
  refine ⟨fun i => (([1, 2] : List Int).getD i 0 : Int), fun i => (([3, 4] : List Int).getD i 0 : Int), ?_, ?_,
    by decide, by decide⟩
  · have := ratMat_represents 2 1 [1, 2] rfl (by decide) (by decide) (by decide)
    refine { this with entry := fun i j => ?_ }
    obtain ⟨x, h1, h2, h3⟩ := this.entry i j
    refine ⟨x, h1, h2, h3.trans ?_⟩
    simp
  · have := ratMat_represents 2 1 [3, 4] rfl (by decide) (by decide) (by decide)
    refine { this with entry := fun i j => ?_ }
    obtain ⟨x, h1, h2, h3⟩ := this.entry i j
    refine ⟨x, h1, h2, h3.trans ?_⟩
    simp

example : letI := Rational.field .debug
    (ratMat 2 2 [1, 2, 0, 4]).isUpperTriangular = .ok true ∧
    (ratMat 2 2 [1, 2, 0, 4]).isLowerTriangular = .ok false ∧
    (ratMat 2 2 [1, 2, 0, 4]).epsilonEquals (ratMat 2 2 [1, 2, 0, 4]) = .ok true ∧
    (ratMat 2 2 [1, 2, 0, 4]).epsilonEquals (ratMat 2 2 [1, 2, 0, 5]) = .ok false := by decide

end examples
end Verif
