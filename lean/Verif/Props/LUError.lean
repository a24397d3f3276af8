import Verif.Proofs.LUError
import Verif.Props.F64Elim

/-!
# Rounding errors of `lu` over `f32` and `f64` (C131)
-/

namespace Verif
open Res LinAlg
namespace Flt
open Fmt
variable [Fmt]

theorem luFor_error (b : Build) (powi : Flt → Int → Flt) {n m : ℕ} {A : ℕ → ℕ → Flt} (k c r : ℕ)
    {lu : LUInternal Flt} {π : ℕ → ℕ} {l w : ℕ → ℕ → Flt} (hcl : c + k ≤ m) (hrn : r ≤ n)
    (he : LUErr n m A r π l w) :
    letI := field b powi
    lu.Has n m r π l → lu.u.Has n m w →
    Spec (· = .unwrapNone) (Mat.luFor n (List.range' c k) r lu)
      (fun lu' => ∃ π' l' w' r', r' ≤ n ∧ lu'.Has n m r' π' l' ∧ lu'.u.Has n m w' ∧
        LUErr n m A r' π' l' w') := by
  let _ := field b powi
  have := tame b powi
  induction k generalizing c lu l w r π with
  | zero => intro h hw; exact ⟨π, l, w, r, hrn, h, hw, he⟩
  | succ k ih =>
    intro h hw
    rw [List.range'_succ, Mat.luFor]
    by_cases hrn' : r ≥ n
    · rw [if_pos hrn']
      exact ⟨π, l, w, r, hrn, h, hw, he⟩
    · rw [if_neg hrn']
      push Not at hrn'
      have hc : c < m := by omega
      refine (hw.getStable hc hrn').bind ?_
      rintro (_ | ⟨s, v⟩) ho
      · exact ih (c + 1) r (by omega) hrn he h hw
      · obtain ⟨hs, hsn, hv, hne⟩ := ho
        have hve : epsilonEquals v zero = false := Res.ok.inj hne
        have he' := (he.swap hrn' hs hsn).step hrn' hc
        simp only [Equiv.swap_apply_left] at he'
        rw [← hv] at he'
        have := (lu_step b powi (E := (· = .unwrapNone)) hrn' hc hs hsn hve h hw).bind
          (f := fun lu => Mat.luFor n (List.range' (c + 1) k) (r + 1) lu)
          fun lu' ⟨h', hw'⟩ => ih (c + 1) (r + 1) (by omega) hrn' he' h' hw'
        simpa only [bind_assoc] using this

/-- C131. Backward error of `lu` over `f32` and `f64`, in both builds: the entries of `p M` and of the exact product
of the computed `l` and `u` differ by at most
`((1 + 2^-prec)^(n+7) - 1) (|l| |u|)(i, j) + (1 + 2^-prec)^n (n + 2 |l(i, i)|) 2^-(unitExp + 1)`, wherever `u(i, j)` and
`l(i, i)` are finite; the factors of the products that count are then finite, too. -/
theorem C131_lu (b : Build) (powi : Flt → Int → Flt) {M : Mat Flt} {n m : ℕ} {A : ℕ → ℕ → Flt}
    (hA : ∀ i j, i < n → j < m → (A i j).Valid) (hnn : n * n < 18446744073709551616) :
    letI := field b powi
    M.Has n m A →
    Spec (· = .unwrapNone) M.lu (fun d => ∃ (π : Equiv.Perm (Fin n)) (l u : ℕ → ℕ → Flt),
      (d.p.Shape n n ∧ ∀ i j : Fin n, d.p.get i j = .ok (if π i = j then one else zero)) ∧
      d.l.Has n n l ∧ d.u.Has n m u ∧
      ∀ (i : Fin n) (j : ℕ), j < m → (u i j).value ≠ none → (l i i).value ≠ none →
        (A (π i) j).value ≠ none ∧
        (∀ t, t < n → (l i t).value ≠ none ∧ ((u t j).value ≠ none ∨ (l i t).value = some 0)) ∧
        |(A (π i) j).val - ∑ t ∈ Finset.range n, (l i t).val * (u t j).val| ≤
          ((1 + 1 / 2 ^ prec) ^ (n + 7) - 1) *
              ∑ t ∈ Finset.range n, |(l i t).val| * |(u t j).val| +
            (1 + 1 / 2 ^ prec) ^ n * (n + 2 * |(l i i).val|) * tiny) := by
  let _ := field b powi
  intro h
  unfold Mat.lu
  rw [h.rows, h.cols, List.range_eq_range' (n := m)]
  have he : LUErr n m A 0 (fun i => i) (fun i j => if i = j then one else zero) A :=
    ⟨hA, fun i _ hi => absurd hi (by omega), fun i j _ _ _ hf =>
      ⟨hf, fun t ht => absurd ht (by omega), by simp [sumLU]⟩⟩
  refine (luFor_error b powi m 0 0 (by omega) (by omega) he
    ⟨by simp, fun i hi => by simp [hi], ⟨fun i hi => hi, fun i j _ _ h => h⟩,
      Mat.has_of_box h.rows_lt h.rows_lt hnn, h.shape, fun i j hij _ => if_neg (by omega),
      fun i j _ _ _ => rfl, fun i hi => absurd hi (by omega)⟩ h).bind ?_
  rintro lu' ⟨π, l, w, r, hr, h', hw, he⟩
  obtain ⟨σ, hσ⟩ := h'.perm.exists_perm
  have hp : (Mat.permutationFromVec lu'.p : Mat Flt).Has n n
      (fun i j => if π i = j then one else zero) := by
    unfold Mat.permutationFromVec
    rw [h'.p_len]
    refine (Mat.has_of_box h.rows_lt h.rows_lt hnn).congr fun i j hi _ => ?_
    simp only [h'.p_get i hi, Option.some.injEq]
    rfl
  refine ⟨σ, l, w, ⟨hp.shape, fun i j => ?_⟩, h'.l_has, hw, fun i j hj hf hlf => ?_⟩
  · rw [hp.get i.2 j.2, ← hσ]
    simp [Fin.ext_iff]
  · have hB : ∑ t ∈ Finset.range n, |(l i t).val| * |(w t j).val| = absLU l w n i j :=
      Finset.sum_congr rfl fun t _ => (abs_mul _ _).symm
    rw [hB, hσ]
    exact he.bound hr h'.lower h'.right i.2 hj hf hlf

/-- The matrix with the rows `(3.0, 1.0)` and `(misfit, 7.0)`. -/
def matErr : Mat Flt :=
  ⟨[fin false (3 * unit), one, misfit, fin false (7 * unit)], 2, 2⟩

/-- The bound applies: all entries of `l` and `u` are finite, and there are errors, since `u` is not upper
triangular. -/
example : letI := field .debug (fun _ _ => nan)
    (∀ x ∈ matErr.entries, x.Valid) ∧
    (matErr.lu >>= fun d => .ok ((d.l.entries ++ d.u.entries).all fun x => x.value.isSome)) = .ok true ∧
    (matErr.lu >>= fun d => d.u.isUpperTriangular) = .ok false := by
  refine ⟨?_, ?_, ?_⟩ <;> fmt_decide

end Flt
end Verif
