import Mathlib.Data.Nat.Digits.Lemmas
import Mathlib.Algebra.BigOperators.Fin
import Verif.LinAlg.MatIter
import Verif.Proofs.MatOps
import Verif.Props.Mat

/-!
# Properties C68 to C70: the iterators of `src/linalg/util.rs`
-/

set_option linter.unusedSectionVars false

namespace Verif

open Res LinAlg

namespace LinAlg

/-- The loop of `numToSeq`, started on `n * base`, appends the digits of `n`. -/
theorem numToSeq_loop {base : ℕ} (n : ℕ) (hb : 2 ≤ base ∨ (1 ≤ base ∧ n = 0)) (s : ℕ)
    (hs : s / base = n) (acc : List ℕ) :
    Res.loop (numToSeqStep base) (s, acc) = .ok (acc ++ Nat.digits base n) := by
  induction n using Nat.strong_induction_on generalizing s acc with
  | _ n ih =>
    have hb0 : base ≠ 0 := by omega
    rw [loop_unfold]
    simp only [numToSeqStep, baseSeqNext, hb0, if_false, hs, bind_ok]
    by_cases hn : n = 0
    · subst hn; simp
    · have hb2 : 2 ≤ base := by omega
      simp only [hn, if_false, pure_eq, bind_ok]
      rw [ih (n / base) (Nat.div_lt_self (by omega) (by omega)) (Or.inl hb2) n rfl]
      rw [Nat.digits_def' (by omega) (by omega : 0 < n)]
      simp

theorem numToSeq_eq {b : Build} {n base : ℕ} (hb : 2 ≤ base ∨ (1 ≤ base ∧ n = 0))
    (h : n * base < 18446744073709551616) : numToSeq b n base = .ok (Nat.digits base n) := by
  have hb0 : 0 < base := by omega
  unfold numToSeq Usize.mul Usize.norm
  rw [if_pos h, bind_ok, numToSeq_loop n hb _ (Nat.mul_div_cancel _ hb0)]
  simp

end LinAlg

/-- **C68** `num_to_seq(n, base)` for `base ≥ 2` (and `n * base` a `usize`) terminates and yields
the digits of `n`: every digit is below the base, their weighted sum, least significant first, is
`n`, and there is no superfluous zero digit at the end (so the sequence is the unique one). -/
theorem C68_num_to_seq (b : Build) (n base : ℕ) (hb : 2 ≤ base)
    (h : n * base < 18446744073709551616) :
    ∃ ds : List ℕ, numToSeq b n base = .ok ds ∧ (∀ d ∈ ds, d < base) ∧
      Nat.ofDigits base ds = n ∧
      (∀ hne : ds ≠ [], ds.getLast hne ≠ 0) ∧ ds = Nat.digits base n := by
  refine ⟨_, numToSeq_eq (Or.inl hb) h, fun d hd => Nat.digits_lt_base (by omega) hd,
    Nat.ofDigits_digits _ _, fun hne => ?_, rfl⟩
  exact Nat.getLast_digit_ne_zero base (by rintro rfl; simp at hne)

/-- The cases `C68_num_to_seq` leaves out: when `n * base` overflows an overflow-checked build
panics; base 0 panics at the first `next`; base 1 never ends (unless `n = 0`). -/
theorem C68_num_to_seq_overflow (n base : ℕ) (h : 18446744073709551616 ≤ n * base) :
    numToSeq .debug n base = .panic .overflowUsize := by
  unfold numToSeq Usize.mul Usize.norm
  rw [if_neg (by omega)]; rfl

theorem C68_num_to_seq_base_zero (b : Build) (n : ℕ) : numToSeq b n 0 = .panic .divByZero := by
  unfold numToSeq Usize.mul Usize.norm
  simp only [Nat.mul_zero]
  rw [if_pos (by omega), bind_ok, loop_unfold]
  rfl

theorem C68_num_to_seq_base_one (b : Build) (n : ℕ) (hn : n ≠ 0) (h : n < 18446744073709551616) :
    numToSeq b n 1 = .diverge := by
  unfold numToSeq Usize.mul Usize.norm
  simp only [Nat.mul_one]
  rw [if_pos h, bind_ok]
  by_contra hd
  obtain ⟨k, hk⟩ := iter_of_loop_ne_diverge hd
  rw [← hk] at hd
  clear hk
  generalize ([] : List ℕ) = acc at hd
  induction k generalizing acc with
  | zero => exact hd rfl
  | succ k ih =>
    refine ih (acc ++ [n % 1]) ?_
    rw [iter] at hd
    simpa [numToSeqStep, baseSeqNext, hn, bind_ok, pure_eq] using hd

/-- In an unchecked build the wrapped product loses digits. -/
theorem C68_num_to_seq_wraps : numToSeq .release 9223372036854775808 2 = .ok [] := by
  unfold numToSeq
  exact loop_eq_of_iter (n := 1) (by decide) (by simp)

example : numToSeq .debug 6 2 = .ok [0, 1, 1] := by
  rw [numToSeq_eq (by omega) (by norm_num)]; norm_num

/-- **C70** `get_box_iter(rows, cols)` yields every pair `(r, c)` with `r < rows` and `c < cols`
exactly once and nothing else, the `k`-th item being `(k / cols, k % cols)`. -/
theorem C70_box_iter (rows cols : ℕ) :
    (boxIter rows cols).length = rows * cols ∧
    (∀ k < rows * cols, (boxIter rows cols)[k]? = some (k / cols, k % cols)) ∧
    (∀ p, (boxIter rows cols).count p = if p.1 < rows ∧ p.2 < cols then 1 else 0) := by
  refine ⟨boxIter_length _ _, fun k hk => Mat.boxIter_getElem? hk, fun p => ?_⟩
  have hnd : (boxIter rows cols).Nodup :=
    List.Nodup.product (List.nodup_range) (List.nodup_range)
  split
  · next h => exact List.count_eq_one_of_mem hnd (mem_boxIter.2 h)
  · next h => exact List.count_eq_zero_of_not_mem fun hm => h (mem_boxIter.1 hm)

/-- **C70** `index_iter` yields the index pairs of the matrix exactly once, row by row. -/
theorem C70_index_iter {F : Type} (M : Mat F) :
    M.indexIter.length = M.rows * M.cols ∧
    (∀ k < M.rows * M.cols, M.indexIter[k]? = some (k / M.cols, k % M.cols)) ∧
    (∀ p, M.indexIter.count p = if p.1 < M.rows ∧ p.2 < M.cols then 1 else 0) :=
  C70_box_iter M.rows M.cols

example : boxIter 2 3 = [(0, 0), (0, 1), (0, 2), (1, 0), (1, 1), (1, 2)] := by decide

section MatIter

variable {F : Type} [RField F]

/-- The matrix at position `num` of the enumeration. -/
private def matAt (n m : ℕ) (values : List F) (hk : 0 < values.length) (num : ℕ) : Mat F :=
  ⟨List.ofFn fun t : Fin (n * m) =>
    values[num / values.length ^ (t : ℕ) % values.length]'(Nat.mod_lt _ hk), n, m⟩

theorem mapM_nth {α : Type} (values : List α) (l : List ℕ) (h : ∀ i ∈ l, i < values.length) :
    l.mapM (fun i => Mat.nth values i) =
      .ok (l.pmap (fun i hi => values[i]'hi) h) := by
  induction l with
  | nil => rfl
  | cons i l ih =>
    have hi : i < values.length := h i (by simp)
    rw [List.mapM_cons, ih fun j hj => h j (by simp [hj])]
    simp [Mat.nth, hi, bind_ok, pure_eq]

theorem mapM_nth_zero {α : Type} (values : List α) (hk : 0 < values.length) (l : List ℕ) :
    l.mapM (fun _ => Mat.nth values 0) = .ok (l.map fun _ => values[0]) := by
  induction l with
  | nil => rfl
  | cons i l ih =>
    rw [List.mapM_cons, ih]
    simp [Mat.nth, hk, bind_ok, pure_eq]

theorem matIterNext_eq (n m : ℕ) (values : List F) (hk : 0 < values.length)
    (hnm : n * m < 18446744073709551616)
    (hfit : values.length ^ (n * m + 1) ≤ 18446744073709551616) (num : ℕ) :
    matIterNext n m values num = .ok (if num < values.length ^ (n * m) then
      some (matAt n m values hk num) else none) := by
  set k := values.length with hkdef
  have hpow : k ^ (n * m % 4294967296) = k ^ (n * m) := by
    rcases Nat.lt_or_ge k 2 with h | h
    · have : k = 1 := by omega
      rw [this, Nat.one_pow, Nat.one_pow]
    · rw [Nat.mod_eq_of_lt]
      by_contra hbig
      have h1 : 2 ^ 65 ≤ k ^ (n * m + 1) :=
        (Nat.pow_le_pow_left h 65).trans (Nat.pow_le_pow_right (by omega) (by omega))
      norm_num at h1
      omega
  have hlt : k ^ (n * m) < 18446744073709551616 := by
    rcases Nat.lt_or_ge k 2 with h | h
    · have : k = 1 := by omega
      rw [this, Nat.one_pow]; omega
    · exact lt_of_lt_of_le (Nat.pow_lt_pow_right (by omega) (by omega)) hfit
  unfold matIterNext Usize.mul Usize.pow Usize.norm
  rw [if_pos hnm, bind_ok, ← hkdef, hpow, if_pos hlt, bind_ok]
  by_cases h : num < k ^ (n * m)
  · rw [if_neg (by omega), if_pos h, numToSeq_eq, bind_ok]
    rotate_left
    · rcases Nat.lt_or_ge k 2 with h' | h'
      · have : k = 1 := by omega
        rw [this, Nat.one_pow] at h
        omega
      · exact Or.inl h'
    · calc num * k < k ^ (n * m) * k := (Nat.mul_lt_mul_right hk).2 h
        _ = k ^ (n * m + 1) := (pow_succ _ _).symm
        _ ≤ _ := hfit
    have hdig : ∀ i ∈ Nat.digits k num, i < values.length := by
      intro i hi
      rcases Nat.lt_or_ge k 2 with h' | h'
      · have : k = 1 := by omega
        rw [this, Nat.one_pow] at h
        rw [show num = 0 by omega] at hi
        simp at hi
      · exact Nat.digits_lt_base (by omega) hi
    have hlen : (Nat.digits k num).length ≤ n * m := by
      rcases Nat.lt_or_ge k 2 with h' | h'
      · have : k = 1 := by omega
        rw [this, Nat.one_pow] at h
        rw [show num = 0 by omega]
        simp
      · exact (Nat.digits_length_le_iff (by omega) _).2 h
    have hget : ∀ t, (Nat.digits k num).getD t 0 = num / k ^ t % k := by
      intro t
      rcases Nat.lt_or_ge k 2 with h' | h'
      · have : k = 1 := by omega
        rw [this, Nat.one_pow] at h
        rw [show num = 0 by omega]
        simp
      · exact Nat.getD_digits _ _ h'
    rw [mapM_nth values _ hdig, bind_ok, mapM_nth_zero values hk, bind_ok, pure_eq]
    congr 2
    unfold Mat.new matAt
    congr 1
    apply List.ext_getElem
    · simp; omega
    · intro t h1 h2
      simp only [List.length_ofFn] at h2
      rw [List.getElem_ofFn]
      rw [List.getElem_append]
      simp only [List.length_pmap, List.getElem_pmap, List.getElem_map]
      split
      · next ht =>
        have := hget t
        rw [List.getD_eq_getElem _ _ ht] at this
        simp only [this, ← hkdef]
      · next ht =>
        have := hget t
        rw [List.getD_eq_default _ _ (by omega)] at this
        simp only [← this, ← hkdef]
  · rw [if_pos (by omega), if_neg h]; rfl

theorem matIterator_eq (n m : ℕ) (values : List F) (hk : 0 < values.length)
    (hnm : n * m < 18446744073709551616)
    (hfit : values.length ^ (n * m + 1) ≤ 18446744073709551616) :
    matIterator n m values =
      .ok ((List.range (values.length ^ (n * m))).map (matAt n m values hk)) := by
  set N := values.length ^ (n * m) with hN
  have key : ∀ d num, num + d = N → ∀ acc, Res.loop (matIteratorStep n m values) (num, acc) =
      .ok (acc ++ (List.range' num d).map (matAt n m values hk)) := by
    intro d
    induction d with
    | zero =>
      intro num h acc
      rw [loop_unfold]
      simp only [matIteratorStep, matIterNext_eq n m values hk hnm hfit, ← hN]
      rw [if_neg (by omega)]
      simp [bind_ok, pure_eq]
    | succ d ih =>
      intro num h acc
      rw [loop_unfold]
      simp only [matIteratorStep, matIterNext_eq n m values hk hnm hfit, ← hN]
      rw [if_pos (by omega)]
      simp only [bind_ok, pure_eq]
      rw [ih (num + 1) (by omega), List.range'_succ]
      simp
  rw [matIterator, key N 0 (by omega), List.range_eq_range']
  simp

/-- **C69** (the part that holds) For a nonempty value slice with `len ^ (n * m + 1) ≤ 2 ^ 64`,
`mat_iterator(n, m, values)` ends after `len ^ (n * m)` items, and the items correspond one to one
to the choices of a value (index) for each of the `n * m` entries. -/
theorem C69_mat_iterator_partial (n m : ℕ) (values : List F) (hk : 0 < values.length)
    (hnm : n * m < 18446744073709551616)
    (hfit : values.length ^ (n * m + 1) ≤ 18446744073709551616) :
    ∃ items : List (Mat F), matIterator n m values = .ok items ∧
      items.length = values.length ^ (n * m) ∧
      ∃ e : Fin items.length ≃ (Fin (n * m) → Fin values.length),
        ∀ i : Fin items.length, items[i] = ⟨List.ofFn fun t => values[e i t], n, m⟩ := by
  refine ⟨_, matIterator_eq n m values hk hnm hfit, by simp,
    (finCongr (by simp)).trans finFunctionFinEquiv.symm, fun i => ?_⟩
  simp [matAt]

example : letI := Rational.field .debug
    (fun l => l.map Mat.entries) <$> matIterator 1 2 [⟨0, 1⟩, (⟨1, 1⟩ : Rational)] =
      .ok [[⟨0, 1⟩, ⟨0, 1⟩], [⟨1, 1⟩, ⟨0, 1⟩], [⟨0, 1⟩, ⟨1, 1⟩], [⟨1, 1⟩, ⟨1, 1⟩]] := by
  let _ := Rational.field .debug
  show _ <$> matIterator 1 2 _ = _
  rw [matIterator_eq 1 2 _ (by simp) (by norm_num) (by norm_num)]
  rfl

/-- With an empty value slice and `n * m ≠ 0` (below `2 ^ 32`) there are no items, as it should. -/
theorem C69_mat_iterator_empty_partial (n m : ℕ) (h0 : n * m ≠ 0) (h : n * m < 4294967296) :
    matIterator n m ([] : List F) = .ok [] := by
  rw [matIterator, loop_unfold]
  simp [matIteratorStep, matIterNext, Usize.mul, Usize.pow, Usize.norm, Nat.mod_eq_of_lt h, h0,
    show n * m < 18446744073709551616 by omega, bind_ok, pure_eq]

/-- **C69** fails: with no values and no entries there is exactly one choice (of nothing), but the
iterator divides by `values.len() = 0`. -/
theorem C69_refuted : letI := Rational.field .debug
    matIterator 0 0 ([] : List Rational) = .panic .divByZero := by
  let _ := Rational.field .debug
  show matIterator 0 0 ([] : List Rational) = _
  rw [matIterator, loop_unfold]
  simp only [matIteratorStep, matIterNext, List.length_nil]
  rw [show Usize.mul (RField.build Rational) 0 0 = .ok 0 from rfl, bind_ok,
    show Usize.pow (RField.build Rational) 0 (0 % 4294967296) = .ok 1 from rfl, bind_ok,
    if_neg (by omega), C68_num_to_seq_base_zero]
  rfl

/-- **C69** also fails for large sizes: `(n * m) as u32` drops high bits, so for `2 ^ 32` entries
the iterator stops after one item, whatever the number of values. -/
theorem C69_refuted_truncation (values : List F) (hk : 1 < values.length) :
    ∃ M : Mat F, matIterator 4294967296 1 values = .ok [M] := by
  have h0 : ∃ M : Mat F, matIterNext 4294967296 1 values 0 = .ok (some M) := by
    unfold matIterNext Usize.mul Usize.pow Usize.norm
    simp only [Nat.mul_one]
    rw [if_pos (by norm_num), bind_ok, if_pos (by norm_num), bind_ok, if_neg (by norm_num),
      numToSeq_eq (by omega) (by norm_num), bind_ok, Nat.digits_zero, List.mapM_nil, pure_eq,
      bind_ok, mapM_nth_zero values (by omega), bind_ok]
    exact ⟨_, rfl⟩
  have h1 : matIterNext 4294967296 1 values 1 = .ok none := by
    unfold matIterNext Usize.mul Usize.pow Usize.norm
    simp only [Nat.mul_one]
    rw [if_pos (by norm_num), bind_ok, if_pos (by norm_num)]
    rfl
  obtain ⟨M, hM⟩ := h0
  refine ⟨M, ?_⟩
  rw [matIterator, loop_unfold]
  simp only [matIteratorStep, hM, bind_ok, pure_eq, Nat.zero_add]
  rw [loop_unfold]
  simp only [matIteratorStep, h1, bind_ok, pure_eq]
  rfl

end MatIter

end Verif
