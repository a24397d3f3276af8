import Verif.Props.Mat
import Verif.Props.Iter

/-!
# C117, C118, C119: matrices, on every argument

What the elementary matrices, row operations, `get_col_iter_mut` and `mat_iterator` do when an index is
out of range, when two indices coincide, or when the numbers are too large.
-/

namespace Verif
open Res LawfulRField LinAlg

/-! ## C117 elementary matrices and row operations with arbitrary indices -/

section
variable {F : Type} [RField F]

omit [RField F] in
theorem map_box_congr {n m : ℕ} {f g : ℕ × ℕ → F} (h : ∀ r c, r < n → c < m → f (r, c) = g (r, c)) :
    (boxIter n m).map f = (boxIter n m).map g :=
  List.map_congr_left fun ⟨r, c⟩ hp => h r c (mem_boxIter.mp hp).1 (mem_boxIter.mp hp).2

/-- C117: elementary matrices whose indices are out of range are the identity, except for
`permutation` with one index in range, which erases that row.  For every coefficient type. -/
theorem C117_out_of_range (n i j : ℕ) (x : F) :
    (n ≤ i → Mat.scaleMat n i x = Mat.identity n) ∧
    (n ≤ i ∨ n ≤ j → Mat.replacement n i j x = Mat.identity n) ∧
    (n ≤ i → n ≤ j → (Mat.permutation n i j : Mat F) = Mat.identity n) ∧
    (i < n → n ≤ j → (Mat.permutation n i j : Mat F) = Mat.scaleMat n i RField.zero) ∧
    (n ≤ i → j < n → (Mat.permutation n i j : Mat F) = Mat.scaleMat n j RField.zero) ∧
    (n ≤ i → (Mat.e i n : Mat F) = Mat.zero n 1) := by
  refine ⟨fun h => ?_, fun h => ?_, fun h h' => ?_, fun h h' => ?_, fun h h' => ?_, fun h => ?_⟩
  · refine congrArg (Mat.new n n) (map_box_congr fun r c hr hc => ?_)
    dsimp only
    rw [if_neg (by omega)]
  · refine congrArg (Mat.new n n) (map_box_congr fun r c hr hc => ?_)
    dsimp only
    rw [if_neg (by omega)]
  · refine congrArg (Mat.new n n) (map_box_congr fun r c hr hc => ?_)
    dsimp only
    refine if_congr (by omega) rfl rfl
  · refine congrArg (Mat.new n n) (map_box_congr fun r c hr hc => ?_)
    dsimp only
    split_ifs <;> first | rfl | omega
  · refine congrArg (Mat.new n n) (map_box_congr fun r c hr hc => ?_)
    dsimp only
    split_ifs <;> first | rfl | omega
  · unfold Mat.e Mat.zero
    have : boxIter n 1 = (List.range n).map fun r => (r, 0) := by
      unfold boxIter
      rw [show List.range 1 = [0] from rfl]
      induction List.range n with
      | nil => rfl
      | cons a l ih => rw [List.flatMap_cons, ih]; rfl
    rw [this, List.map_map]
    refine congrArg (Mat.new n 1) (List.map_congr_left fun r hr => ?_)
    rw [if_neg (by have := List.mem_range.mp hr; omega)]
    rfl

/-- C117: elementary matrices with equal indices.  `replacement(n, i, i, x)` is the matrix that
multiplies row `i` by `x` (and not by `1 + x`). -/
theorem C117_equal (n i : ℕ) (x : F) :
    Mat.replacement n i i x = Mat.scaleMat n i x ∧
    (Mat.permutation n i i : Mat F) = Mat.identity n := by
  refine ⟨congrArg (Mat.new n n) (map_box_congr fun r c hr hc => ?_),
    congrArg (Mat.new n n) (map_box_congr fun r c hr hc => ?_)⟩
  · dsimp only
    refine if_congr (by omega) rfl rfl
  · dsimp only
    refine if_congr (by omega) rfl rfl

/-- C117: row operations on a row that does not exist panic when overflow checks are on, unless there
are no columns. -/
theorem C117_row_panics (M : Mat F) (hM : M.Shaped) (hb : RField.build F = .debug) (hc : 0 < M.cols)
    (i j : ℕ) (x : F) (hi : M.rows ≤ i) :
    ∃ p, (p = .overflowUsize ∨ p = .indexOutOfBounds) ∧ M.scaleRow i x = .panic p ∧
      M.permuteRows i j = .panic p ∧ (j < M.rows → M.permuteRows j i = .panic p) ∧
      M.replaceRow j i x = .panic p ∧ (j < M.rows → M.replaceRow i j x = .panic p) := by
  obtain ⟨p, hp, hg, hs⟩ := C50_out_of_bounds M hb i 0 (by
    rw [hM.1]; have := Nat.mul_le_mul_right M.cols hi; omega)
  obtain ⟨m, hm⟩ : ∃ m, M.cols = m + 1 := ⟨M.cols - 1, by omega⟩
  have hj : j < M.rows → ∃ y, M.get j 0 = .ok y := fun h => (hM.get h hc).imp fun _ h => h.2
  refine ⟨p, hp, ?_, ?_, fun h => ?_, ?_, fun h => ?_⟩
  · rw [Mat.scaleRow, hm, List.range_succ_eq_map, List.foldlM_cons, hg]; rfl
  · rw [Mat.permuteRows, hm, List.range_succ_eq_map, List.foldlM_cons, hg]; rfl
  · obtain ⟨y, hy⟩ := hj h
    rw [Mat.permuteRows, hm, List.range_succ_eq_map, List.foldlM_cons, hy, bind_ok, hg]; rfl
  · rw [Mat.replaceRow, hm, List.range_succ_eq_map, List.foldlM_cons, hg]; rfl
  · obtain ⟨y, hy⟩ := hj h
    rw [Mat.replaceRow, hm, List.range_succ_eq_map, List.foldlM_cons, hy, bind_ok, hg]; rfl

/-- Without columns, row operations do nothing, whatever the row. -/
theorem C117_no_columns (M : Mat F) (hc : M.cols = 0) (i j : ℕ) (x : F) :
    M.scaleRow i x = .ok M ∧ M.permuteRows i j = .ok M ∧ M.replaceRow i j x = .ok M := by
  refine ⟨?_, ?_, ?_⟩
  · rw [Mat.scaleRow, hc]; rfl
  · rw [Mat.permuteRows, hc]; rfl
  · rw [Mat.replaceRow, hc]; rfl

end

section
variable {F : Type} [RField F] {K : Type} [Field K] [LawfulRField F K]

/-- C117: `replace_row(t, t, x)` multiplies row `t` by `1 + x`. -/
theorem C117_replace_row_same {n m : ℕ} (M : Mat F) (A : Matrix (Fin n) (Fin m) K)
    (hM : M.Represents A) (t : Fin n) (x : F) (hx : wf x) :
    Spec (allowed F) (M.replaceRow t t x)
      (fun R => R.Represents (A.updateRow t ((1 + val x) • A t))) := by
  refine (hM.is.replaceRow t.2 t.2 hx).imp fun R hR => hR.represents fun r c => ?_
  by_cases h : r = t
  · subst h; simp [matExt_fin]; ring
  · have : (r : ℕ) ≠ t := fun h' => h (Fin.ext h')
    simp [h, this, matExt_fin]

/-- C117: multiplying by `permutation_from_vec(v)` of any vector `v` selects rows: row `i` of the
product is row `v[i]`, or zero if there is no such row. -/
theorem C117_permutation_from_vec {m : ℕ} (v : List ℕ) (M : Mat F)
    (A : Matrix (Fin v.length) (Fin m) K) (hM : M.Represents A)
    (hn : v.length * v.length < 18446744073709551616) :
    Spec (allowed F) ((Mat.permutationFromVec v).mul M) (fun R => R.Represents
      (Matrix.of fun i j => if h : v[i] < v.length then A ⟨v[i], h⟩ j else 0)) := by
  refine ((Mat.is_permutationFromVec (n := v.length) (π := fun i => v.getD i 0) rfl
    (fun i hi => by simp [List.getD, hi]) hM.rows_lt hn).mul hM.is hM.len_lt).imp fun R hR =>
      hR.represents fun r c => ?_
  simp only [List.getD_eq_getElem v 0 r.2, Matrix.of_apply]
  change _ = if h : v[(r : ℕ)] < v.length then A ⟨v[(r : ℕ)], h⟩ c else 0
  by_cases h : v[(r : ℕ)] < v.length
  · rw [Finset.sum_eq_single v[(r : ℕ)], dif_pos h, if_pos rfl, one_mul, matExt, dif_pos ⟨h, c.2⟩]
    · intro k _ hk
      rw [if_neg (Ne.symm hk), zero_mul]
    · intro h'; exact absurd (Finset.mem_range.mpr h) h'
  · rw [Finset.sum_eq_zero, dif_neg h]
    intro k hk
    have := Finset.mem_range.mp hk
    rw [if_neg (by rintro rfl; exact h this), zero_mul]

end

example : letI := Rational.field .debug
    (Mat.permutation 2 0 5 : Mat Rational) = ratMat 2 2 [0, 0, 0, 1] ∧
    (ratMat 2 1 [3, 4]).replaceRow 1 1 ⟨2, 1⟩ = .ok (ratMat 2 1 [3, 12]) ∧
    (Mat.permutationFromVec [1, 1]).mul (ratMat 2 2 [1, 2, 3, 4]) = .ok (ratMat 2 2 [3, 4, 3, 4]) ∧
    (ratMat 2 1 [3, 4]).scaleRow 2 ⟨2, 1⟩ = .panic .indexOutOfBounds := by decide

/-! ## C118 `get_col_iter_mut` on every matrix -/

section
variable {F : Type} [RField F]

omit [RField F] in
/-- C118: `get_col_iter_mut(c)` panics on a matrix without rows; it panics if `c` is not below the
number of *rows*, unless there are fewer entries than rows; otherwise it yields the distinct cells
`c, rows + c, 2 * rows + c, …`, one for each complete block of `rows` entries. -/
theorem C118_col_iter_mut (M : Mat F) (c : ℕ) :
    (M.rows = 0 → M.getColIterMut c = .panic .zeroChunk) ∧
    (0 < M.rows → M.entries.length < M.rows → M.getColIterMut c = .ok []) ∧
    (0 < M.rows → M.rows ≤ M.entries.length → M.rows ≤ c →
      M.getColIterMut c = .panic .indexOutOfBounds) ∧
    (c < M.rows → ∃ l, M.getColIterMut c = .ok l ∧ l.length = M.entries.length / M.rows ∧
      (∀ k < M.entries.length / M.rows, l[k]? = some (k * M.rows + c)) ∧
      (∀ i ∈ l, i < M.entries.length) ∧ l.Nodup) := by
  refine ⟨fun h => ?_, fun h h1 => ?_, fun h h1 h2 => ?_, fun h => ?_⟩
  · rw [Mat.getColIterMut, if_pos h]
  · rw [Mat.getColIterMut, if_neg (by omega), Nat.div_eq_of_lt h1]; rfl
  · obtain ⟨m, hm⟩ : ∃ m, M.entries.length / M.rows = m + 1 :=
      ⟨M.entries.length / M.rows - 1, by have := Nat.div_pos h1 h; omega⟩
    rw [Mat.getColIterMut, if_neg (by omega), hm, List.range_succ_eq_map, List.mapM_cons,
      if_neg (by omega)]
    rfl
  · refine ⟨(List.range (M.entries.length / M.rows)).map fun k => k * M.rows + c, ?_, by simp,
      fun k hk => by simp [hk], fun i hi => ?_, ?_⟩
    · rw [Mat.getColIterMut, if_neg (by omega)]
      exact mapM_ok fun k _ => if_pos h
    · obtain ⟨k, hk, rfl⟩ := List.mem_map.mp hi
      have hk := List.mem_range.mp hk
      have h1 : (k + 1) * M.rows ≤ M.entries.length / M.rows * M.rows := Nat.mul_le_mul_right _ hk
      have h2 := Nat.div_mul_le_self M.entries.length M.rows
      rw [Nat.succ_mul] at h1
      omega
    · refine List.Nodup.map (fun a b hab => ?_) List.nodup_range
      have : a * M.rows = b * M.rows := by omega
      exact Nat.eq_of_mul_eq_mul_right (by omega) this

/-- C118: on a well-formed matrix that is not empty, `get_col_iter_mut(c)` yields the cells of column
`c`, for every column, exactly when the matrix is square. -/
theorem C118_square (M : Mat F) (hM : M.Shaped) (hr : 0 < M.rows) (hc : 0 < M.cols) :
    (∀ c < M.cols, M.getColIterMut c = .ok ((List.range M.rows).map fun r => r * M.cols + c)) ↔
      M.rows = M.cols := by
  refine ⟨fun h => ?_, fun h c hc => C55_col_mut_partial M hM h c hc⟩
  obtain ⟨l, hl, hlen, -⟩ := (C118_col_iter_mut M 0).2.2.2 hr
  rw [h 0 hc] at hl
  cases hl
  rw [List.length_map, List.length_range, hM.1, Nat.mul_div_cancel_left _ hr] at hlen
  exact hlen

end

example : (ratMat 2 3 [1, 2, 3, 4, 5, 6]).getColIterMut 1 = .ok [1, 3, 5] ∧
    (ratMat 2 3 [1, 2, 3, 4, 5, 6]).getColIterMut 2 = .panic .indexOutOfBounds ∧
    (ratMat 0 3 []).getColIterMut 0 = .panic .zeroChunk := by decide

/-! ## C119 `mat_iterator` on every argument -/

section
variable {F : Type} [RField F]

/-- The matrix whose entries are the digits of `num`, least significant first, as indices into
`values`. -/
def matAt (n m : ℕ) (values : List F) (hk : 0 < values.length) (num : ℕ) : Mat F :=
  ⟨List.ofFn fun t : Fin (n * m) =>
    values[num / values.length ^ (t : ℕ) % values.length]'(Nat.mod_lt _ hk), n, m⟩

/-- One call of `next` that finds an item. -/
theorem matIterNext_item (n m : ℕ) (values : List F) (hk : 0 < values.length)
    (hnm : n * m < 18446744073709551616)
    (hpow : values.length ^ (n * m % 4294967296) < 18446744073709551616) (num : ℕ)
    (hnum : num < values.length ^ (n * m % 4294967296))
    (hfit : num * values.length < 18446744073709551616) :
    matIterNext n m values num = .ok (some (matAt n m values hk num)) := by
  set k := values.length with hkdef
  unfold matIterNext Usize.mul Usize.pow Usize.norm
  rw [if_pos hnm, bind_ok, ← hkdef, if_pos hpow, bind_ok, if_neg (by omega)]
  have h12 : 2 ≤ k ∨ k = 1 ∧ num = 0 := by
    rcases Nat.lt_or_ge k 2 with h' | h'
    · have : k = 1 := by omega
      rw [this, Nat.one_pow] at hnum
      exact Or.inr ⟨this, by omega⟩
    · exact Or.inl h'
  rw [numToSeq_eq (by omega) hfit, bind_ok]
  have hdig : ∀ i ∈ Nat.digits k num, i < values.length := by
    intro i hi
    rcases h12 with h' | ⟨h', h0⟩
    · exact Nat.digits_lt_base (by omega) hi
    · rw [h0] at hi; simp at hi
  have hlen : (Nat.digits k num).length ≤ n * m := by
    rcases h12 with h' | ⟨h', h0⟩
    · exact ((Nat.digits_length_le_iff (by omega) _).2 hnum).trans (Nat.mod_le _ _)
    · rw [h0]; simp
  have hget : ∀ t, (Nat.digits k num).getD t 0 = num / k ^ t % k := by
    intro t
    rcases h12 with h' | ⟨h', h0⟩
    · exact Nat.getD_digits _ _ h'
    · rw [h0]; simp
  rw [mapM_nth values _ hdig, bind_ok, mapM_nth_zero values hk, bind_ok, pure_eq]
  congr 2
  unfold Mat.new matAt
  congr 1
  apply List.ext_getElem
  · simp; omega
  · intro t h1 h2
    simp only [List.length_ofFn] at h2
    rw [List.getElem_ofFn]
    rw [List.getElem_append]
    simp only [List.length_pmap, List.getElem_pmap, List.getElem_map]
    split
    · next ht =>
      have := hget t
      rw [List.getD_eq_getElem _ _ ht] at this
      simp only [this, ← hkdef]
    · next ht =>
      have := hget t
      rw [List.getD_eq_default _ _ (by omega)] at this
      simp only [← this, ← hkdef]

/-- One call of `next` after the last item. -/
theorem matIterNext_end (n m : ℕ) (values : List F)
    (hnm : n * m < 18446744073709551616)
    (hpow : values.length ^ (n * m % 4294967296) < 18446744073709551616) (num : ℕ)
    (hnum : values.length ^ (n * m % 4294967296) ≤ num) :
    matIterNext n m values num = .ok none := by
  unfold matIterNext Usize.mul Usize.pow Usize.norm
  rw [if_pos hnm, bind_ok, if_pos hpow, bind_ok, if_pos (by omega)]
  rfl

/-- The first items. -/
theorem matIterator_prefix (n m : ℕ) (values : List F) (hk : 0 < values.length)
    (hnm : n * m < 18446744073709551616)
    (hpow : values.length ^ (n * m % 4294967296) < 18446744073709551616) (d : ℕ)
    (hd : d ≤ values.length ^ (n * m % 4294967296))
    (hfit : (d - 1) * values.length < 18446744073709551616) :
    matIterator n m values = Res.loop (matIteratorStep n m values)
      (d, (List.range d).map (matAt n m values hk)) := by
  induction d with
  | zero => rfl
  | succ d ih =>
    rw [ih (by omega) (lt_of_le_of_lt (Nat.mul_le_mul_right _ (by omega)) hfit), loop_unfold]
    simp only [matIteratorStep]
    rw [matIterNext_item n m values hk hnm hpow d (by omega) (by simpa using hfit)]
    simp only [bind_ok, pure_eq]
    rw [List.range_succ, List.map_append]
    rfl

/-- C119: exactly what `mat_iterator(n, m, values)` does when overflow checks are on.  With
`k = values.len()` and `e = (n * m) mod 2^32`:

* if `n * m` or `k ^ e` is not a `usize`, it panics;
* if there are no values, it yields nothing, or panics if `e = 0`;
* otherwise, if `(k ^ e - 1) * k` is a `usize`, it yields `k ^ e` matrices, entry `t` of the `i`-th
  one being `values[i / k^t mod k]`;
* otherwise it panics after some items.

It never runs forever. -/
theorem C119_mat_iterator (n m : ℕ) (values : List F) (hb : RField.build F = .debug) :
    let k := values.length
    let e := n * m % 4294967296
    (18446744073709551616 ≤ n * m → matIterator n m values = .panic .overflowUsize) ∧
    (n * m < 18446744073709551616 → 18446744073709551616 ≤ k ^ e →
      matIterator n m values = .panic .overflowUsize) ∧
    (n * m < 18446744073709551616 → k = 0 → e ≠ 0 → matIterator n m values = .ok []) ∧
    (n * m < 18446744073709551616 → k = 0 → e = 0 → matIterator n m values = .panic .divByZero) ∧
    (n * m < 18446744073709551616 → k ^ e < 18446744073709551616 → ∀ hk : 0 < values.length,
      ((k ^ e - 1) * k < 18446744073709551616 → matIterator n m values =
        .ok ((List.range (k ^ e)).map (matAt n m values hk))) ∧
      (18446744073709551616 ≤ (k ^ e - 1) * k → matIterator n m values = .panic .overflowUsize)) := by
  intro k e
  refine ⟨fun h => ?_, fun h h1 => ?_, fun h h1 h2 => ?_, fun h h1 h2 => ?_, fun h h1 hk =>
    ⟨fun h2 => ?_, fun h2 => ?_⟩⟩
  · rw [matIterator, loop_unfold]
    simp only [matIteratorStep, matIterNext, Usize.mul, Usize.norm, hb]
    rw [if_neg (by omega)]
    rfl
  · rw [matIterator, loop_unfold]
    simp only [matIteratorStep, matIterNext, Usize.mul, Usize.pow, Usize.norm, hb]
    rw [if_pos h, bind_ok, if_neg (by change ¬ k ^ e < _; omega)]
    rfl
  · have h0 : k ^ e = 0 := by rw [h1]; exact Nat.zero_pow (by omega)
    rw [matIterator, loop_unfold]
    simp only [matIteratorStep]
    rw [matIterNext_end n m values h (by change k ^ e < _; omega) 0 (by change k ^ e ≤ _; omega)]
    rfl
  · have h0 : k ^ e = 1 := by rw [h2]; exact Nat.pow_zero _
    rw [matIterator, loop_unfold]
    simp only [matIteratorStep, matIterNext, Usize.mul, Usize.pow, Usize.norm, hb]
    rw [if_pos h, bind_ok, if_pos (by change k ^ e < _; omega), bind_ok,
      if_neg (by change ¬ 0 ≥ k ^ e; omega), show values.length = 0 from h1, C68_num_to_seq_base_zero]
    rfl
  · rw [matIterator_prefix n m values hk h h1 (k ^ e) le_rfl h2, loop_unfold]
    simp only [matIteratorStep]
    rw [matIterNext_end n m values h h1 _ le_rfl]
    rfl
  · have hex : ∃ d, 18446744073709551616 ≤ d * k := ⟨_, h2⟩
    classical
    have hd := Nat.find_spec hex
    have hmin : ∀ j < Nat.find hex, j * k < 18446744073709551616 := fun j hj => by
      have := Nat.find_min hex hj; omega
    have hle := Nat.find_min' hex h2
    generalize Nat.find hex = d at *
    have hpos : 0 < k ^ e := Nat.pow_pos hk
    have hd0 : 0 < d := by
      rcases Nat.eq_zero_or_pos d with rfl | h'
      · omega
      · exact h'
    rw [matIterator_prefix n m values hk h h1 d (by change d ≤ k ^ e; omega) (hmin _ (by omega)), loop_unfold]
    simp only [matIteratorStep, matIterNext, Usize.mul, Usize.pow, Usize.norm, hb]
    rw [if_pos h, bind_ok, if_pos h1, bind_ok, if_neg (by change ¬ d ≥ k ^ e; omega),
      C68_num_to_seq_overflow]
    · rfl
    · exact hd

/-- C119: `mat_iterator` does not run forever. -/
theorem C119_total (n m : ℕ) (values : List F) (hb : RField.build F = .debug) :
    matIterator n m values ≠ .diverge := by
  obtain ⟨h1, h2, h3, h4, h5⟩ := C119_mat_iterator n m values hb
  by_cases a : n * m < 18446744073709551616
  · by_cases b : values.length ^ (n * m % 4294967296) < 18446744073709551616
    · rcases Nat.eq_zero_or_pos values.length with c | c
      · by_cases d : n * m % 4294967296 = 0
        · rw [h4 a c d]; simp
        · rw [h3 a c d]; simp
      · obtain ⟨h6, h7⟩ := h5 a b c
        by_cases d : (values.length ^ (n * m % 4294967296) - 1) * values.length < 18446744073709551616
        · rw [h6 d]; simp
        · rw [h7 (by omega)]; simp
    · rw [h2 a (by omega)]; simp
  · rw [h1 (by omega)]; simp

end

/-- 64 boolean entries are one too many; 63 are not. -/
example : letI := Rational.field .debug
    matIterator 8 8 [⟨0, 1⟩, (⟨1, 1⟩ : Rational)] = .panic .overflowUsize ∧
    matIterator 9 7 [⟨0, 1⟩, (⟨1, 1⟩ : Rational)] ≠ .panic .overflowUsize := by
  let _ := Rational.field .debug
  refine ⟨(C119_mat_iterator 8 8 _ rfl).2.1 (by decide) (by decide +kernel), ?_⟩
  change matIterator 9 7 [⟨0, 1⟩, (⟨1, 1⟩ : Rational)] ≠ _
  rw [((C119_mat_iterator 9 7 [⟨0, 1⟩, (⟨1, 1⟩ : Rational)] rfl).2.2.2.2 (by decide) (by decide +kernel)
    (by decide)).1 (by decide +kernel)]
  simp

end Verif
