import Verif.Props.MatExact

/-!
# Property C163: the iterators of `src/linalg/util.rs` without overflow checks
-/

namespace Verif
open Res LinAlg

namespace LinAlg

theorem numToSeq_release {n base : ℕ} (hb : 2 ≤ base ∨ base = 1 ∧ n = 0) :
    numToSeq .release n base =
      .ok (Nat.digits base (n * base % 18446744073709551616 / base)) := by
  unfold numToSeq Usize.mul Usize.norm
  have hmod : (if n * base < 18446744073709551616 then Res.ok (n * base)
      else .ok (n * base % 18446744073709551616)) = .ok (n * base % 18446744073709551616) := by
    split
    · next h => rw [Nat.mod_eq_of_lt h]
    · rfl
  simp only
  rw [hmod, bind_ok]
  refine (numToSeq_loop (n * base % 18446744073709551616 / base) ?_ _ rfl []).trans (by simp)
  rcases hb with h | ⟨h, h'⟩
  · exact .inl h
  · exact .inr ⟨by omega, by rw [h']; simp⟩

end LinAlg

/-- **C163 (num_to_seq).** Without overflow checks `num_to_seq(n, base)` yields the digits of
`(n * base mod 2^64) / base`, which is `n` as long as `n * base < 2^64` and otherwise less than `n`. -/
theorem C163_num_to_seq (n base : ℕ) (hb : 2 ≤ base) :
    numToSeq .release n base = .ok (Nat.digits base (n * base % 18446744073709551616 / base)) ∧
    (n * base < 18446744073709551616 → n * base % 18446744073709551616 / base = n) ∧
    (18446744073709551616 ≤ n * base → n * base % 18446744073709551616 / base < n) := by
  refine ⟨numToSeq_release (.inl hb), fun h => ?_, fun h => ?_⟩
  · rw [Nat.mod_eq_of_lt h, Nat.mul_div_cancel _ (by omega)]
  · rw [Nat.div_lt_iff_lt_mul (by omega)]
    have := Nat.mod_lt (n * base) (show 18446744073709551616 > 0 by norm_num)
    omega

section
variable {F : Type} [RField F]

/-- The item `mat_iterator(n, m, values)` yields at position `num` without overflow checks. -/
def wrapAt (n m : ℕ) (values : List F) (hk : 0 < values.length) (num : ℕ) : Mat F :=
  ⟨List.ofFn fun t : Fin (n * m % 18446744073709551616) =>
    values[num * values.length % 18446744073709551616 / values.length / values.length ^ (t : ℕ) %
      values.length]'(Nat.mod_lt _ hk), n, m⟩

theorem usize_norm_release (x : ℕ) : Usize.norm .release x = .ok (x % 18446744073709551616) := by
  unfold Usize.norm
  split
  · next h => rw [Nat.mod_eq_of_lt h]
  · rfl

theorem matIterNext_release (n m : ℕ) (values : List F) (hb : RField.build F = .release)
    (hk : 0 < values.length) (num : ℕ) (hnum : num < 18446744073709551616) :
    matIterNext n m values num = .ok (if num < values.length ^
        (n * m % 18446744073709551616 % 4294967296) % 18446744073709551616 then
      some (wrapAt n m values hk num) else none) := by
  set k := values.length with hkdef
  set e := n * m % 18446744073709551616 % 4294967296 with he
  unfold matIterNext Usize.mul Usize.pow
  rw [hb, usize_norm_release, bind_ok, usize_norm_release, bind_ok, ← hkdef, ← he]
  by_cases h : num < k ^ e % 18446744073709551616
  · rw [if_neg (by omega), if_pos h]
    have h12 : 2 ≤ k ∨ k = 1 ∧ num = 0 := by
      rcases Nat.lt_or_ge k 2 with h' | h'
      · have : k = 1 := by omega
        rw [this, Nat.one_pow] at h
        exact Or.inr ⟨this, by omega⟩
      · exact Or.inl h'
    rw [numToSeq_release h12, bind_ok]
    set x := num * k % 18446744073709551616 / k with hx
    have hxn : x ≤ num := by
      rw [hx]
      exact (Nat.div_le_div_right (Nat.mod_le _ _)).trans (by rw [Nat.mul_div_cancel _ hk])
    have h12' : 2 ≤ k ∨ k = 1 ∧ x = 0 := by
      clear_value x
      omega
    have hlt : x < k ^ e := lt_of_le_of_lt hxn (lt_of_lt_of_le h (Nat.mod_le _ _))
    have hdig : ∀ i ∈ Nat.digits k x, i < values.length := by
      intro i hi
      rcases h12' with h' | ⟨h', h0⟩
      · exact Nat.digits_lt_base (by omega) hi
      · rw [h0] at hi; simp at hi
    have hlen : (Nat.digits k x).length ≤ n * m % 18446744073709551616 := by
      rcases h12' with h' | ⟨h', h0⟩
      · exact ((Nat.digits_length_le_iff (by omega) _).2 hlt).trans (Nat.mod_le _ _)
      · rw [h0]; simp
    have hget : ∀ t, (Nat.digits k x).getD t 0 = x / k ^ t % k := by
      intro t
      rcases h12' with h' | ⟨h', h0⟩
      · exact Nat.getD_digits _ _ h'
      · rw [h0]; simp
    rw [mapM_nth values _ hdig, bind_ok, mapM_nth_zero values hk, bind_ok, pure_eq]
    congr 2
    unfold Mat.new wrapAt
    congr 1
    apply List.ext_getElem
    · simp; omega
    · intro t h1 h2
      simp only [List.length_ofFn] at h2
      rw [List.getElem_ofFn]
      rw [List.getElem_append]
      simp only [List.length_pmap, List.getElem_pmap, List.getElem_map]
      split
      · next ht =>
        have := hget t
        rw [List.getD_eq_getElem _ _ ht] at this
        simp only [this, ← hkdef, ← hx]
      · next ht =>
        have := hget t
        rw [List.getD_eq_default _ _ (by omega)] at this
        simp only [← this, ← hkdef, ← hx]
  · rw [if_pos (by omega), if_neg h]; rfl

/-- **C163 (mat_iterator).** Exactly what `mat_iterator(n, m, values)` does without overflow checks.
With `k = values.len()` and `e = (n * m mod 2^64) mod 2^32`: if there are no values, it yields nothing,
or panics if `e = 0`; otherwise it yields `k ^ e mod 2^64` items with `n * m mod 2^64` entries each,
entry `t` of the `i`-th one being `values[x / k^t mod k]` where `x = (i * k mod 2^64) / k`. -/
theorem C163_mat_iterator (n m : ℕ) (values : List F) (hb : RField.build F = .release) :
    let k := values.length
    let e := n * m % 18446744073709551616 % 4294967296
    (k = 0 → e ≠ 0 → matIterator n m values = .ok []) ∧
    (k = 0 → e = 0 → matIterator n m values = .panic .divByZero) ∧
    ∀ hk : 0 < values.length, matIterator n m values =
      .ok ((List.range (k ^ e % 18446744073709551616)).map (wrapAt n m values hk)) := by
  intro k e
  refine ⟨fun h0 he => ?_, fun h0 he => ?_, fun hk => ?_⟩
  · have : k ^ e = 0 := by rw [h0]; exact Nat.zero_pow (by omega)
    rw [matIterator, loop_unfold]
    simp only [matIteratorStep, matIterNext, Usize.mul, Usize.pow, hb, usize_norm_release, bind_ok]
    rw [if_pos (by change 0 ≥ k ^ e % _; omega)]
    rfl
  · have : k ^ e = 1 := by rw [he]; exact Nat.pow_zero _
    rw [matIterator, loop_unfold]
    simp only [matIteratorStep, matIterNext, Usize.mul, Usize.pow, hb, usize_norm_release, bind_ok]
    rw [if_neg (by change ¬ 0 ≥ k ^ e % _; omega), show values.length = 0 from h0,
      C68_num_to_seq_base_zero]
    rfl
  · have hN : k ^ e % 18446744073709551616 < 18446744073709551616 := Nat.mod_lt _ (by norm_num)
    set N := k ^ e % 18446744073709551616 with hNdef
    have key : ∀ d num, num + d = N → ∀ acc, Res.loop (matIteratorStep n m values) (num, acc) =
        .ok (acc ++ (List.range' num d).map (wrapAt n m values hk)) := by
      intro d
      induction d with
      | zero =>
        intro num h acc
        rw [loop_unfold]
        simp only [matIteratorStep]
        rw [matIterNext_release n m values hb hk num (by omega), if_neg (by change ¬ num < N; omega)]
        simp [bind_ok, pure_eq]
      | succ d ih =>
        intro num h acc
        rw [loop_unfold]
        simp only [matIteratorStep]
        rw [matIterNext_release n m values hb hk num (by omega), if_pos (by change num < N; omega)]
        simp only [bind_ok, pure_eq]
        rw [ih (num + 1) (by omega), List.range'_succ]
        simp
    rw [matIterator, key N 0 (by omega), List.range_eq_range']
    simp

omit [RField F] in
theorem wrapAt_eq_matAt (n m : ℕ) (values : List F) (hk : 0 < values.length)
    (hnm : n * m < 18446744073709551616) (i : ℕ) (hi : i * values.length < 18446744073709551616) :
    wrapAt n m values hk i = matAt n m values hk i := by
  unfold wrapAt matAt
  congr 1
  apply List.ext_getElem
  · simp [Nat.mod_eq_of_lt hnm]
  · intro t h1 h2
    simp only [List.getElem_ofFn, Nat.mod_eq_of_lt hi, Nat.mul_div_cancel _ hk]

/-- **C163 (agreement).** If `n * m < 2^32` and `k ^ (n * m + 1) < 2^64`, nothing wraps: all the matrices
come, in the order of C119. -/
theorem C163_agrees (n m : ℕ) (values : List F) (hb : RField.build F = .release)
    (hk : 0 < values.length) (hnm : n * m < 4294967296)
    (hN : values.length ^ (n * m + 1) < 18446744073709551616) :
    matIterator n m values =
      .ok ((List.range (values.length ^ (n * m))).map (matAt n m values hk)) := by
  have hN' : values.length ^ (n * m) < 18446744073709551616 :=
    lt_of_le_of_lt (Nat.pow_le_pow_right hk (Nat.le_succ _)) hN
  rw [(C163_mat_iterator n m values hb).2.2 hk, Nat.mod_eq_of_lt (show n * m < _ by omega),
    Nat.mod_eq_of_lt hnm, Nat.mod_eq_of_lt hN']
  congr 1
  apply List.map_congr_left
  intro i hi
  rw [List.mem_range] at hi
  apply wrapAt_eq_matAt n m values hk (by omega)
  rw [Nat.pow_succ] at hN
  exact lt_of_le_of_lt (Nat.mul_le_mul_right _ hi.le) hN

/-- **C163 (repetitions).** Once `i * k` has reached `2^64`, the items repeat earlier ones. -/
theorem C163_repeats (n m : ℕ) (values : List F) (hb : RField.build F = .release)
    (hk : 0 < values.length) (l : List (Mat F)) (hl : matIterator n m values = .ok l) (i : ℕ)
    (hil : i < l.length) (hi : 18446744073709551616 ≤ i * values.length) :
    ∃ j, ∃ h : j < i, l[i] = l[j] := by
  rw [(C163_mat_iterator n m values hb).2.2 hk] at hl
  cases hl
  refine ⟨i * values.length % 18446744073709551616 / values.length, ?_, ?_⟩
  · rw [Nat.div_lt_iff_lt_mul hk]
    have := Nat.mod_lt (i * values.length) (show 18446744073709551616 > 0 by norm_num)
    omega
  · have h : i * values.length % 18446744073709551616 / values.length * values.length %
        18446744073709551616 / values.length =
        i * values.length % 18446744073709551616 / values.length := by
      rw [Nat.mod_eq_of_lt, Nat.mul_div_cancel _ hk]
      exact lt_of_le_of_lt (Nat.div_mul_le_self _ _) (Nat.mod_lt _ (by norm_num))
    simp only [List.getElem_map, List.getElem_range]
    unfold wrapAt
    simp only [h]

end

/-- 64 boolean entries: no items at all. -/
example : letI := Rational.field .release
    matIterator 8 8 [⟨0, 1⟩, (⟨1, 1⟩ : Rational)] = .ok [] := by
  let _ := Rational.field .release
  rw [(C163_mat_iterator 8 8 [⟨0, 1⟩, (⟨1, 1⟩ : Rational)] rfl).2.2 (by decide)]
  rw [show ([⟨0, 1⟩, (⟨1, 1⟩ : Rational)].length ^ (8 * 8 % 18446744073709551616 % 4294967296)) %
    18446744073709551616 = 0 by decide +kernel]
  rfl

example : numToSeq .release 6148914691236517206 3 = .ok [] := by
  rw [(C163_num_to_seq _ _ (by norm_num)).1]; rfl

end Verif
