import Verif.Proofs.F64Exact
import Verif.Proofs.IntData

/-!
# Integers of absolute value at most `2^prec` in `f32` and `f64`

Sums, differences and products of integers are exact as long as they are at most `2^prec` in absolute
value, so the checked arithmetic `Flt.exact` does not panic on them.
-/

namespace Verif
open Res LawfulRField LinAlg

namespace Flt
open Fmt
variable [Fmt]

/-- The number is the integer `i`. -/
def IsInt (x : Flt) (i : ℤ) : Prop := x.value = some (i : ℚ)

theorem isInt_zero : IsInt zero 0 := by
  unfold IsInt; rw [value_some (x := zero) rfl, rat_zero]; simp

theorem isInt_one : IsInt one 1 := by
  unfold IsInt; rw [value_some (x := one) rfl, rat_one]; simp

variable {x y : Flt} {i j : ℤ}

theorem IsInt.rat (h : IsInt x i) : x.rat = i := by unfold Flt.rat; rw [h]; rfl

theorem IsInt.exists_fin (h : IsInt x i) : ∃ s n, x = fin s n ∧ units s n = i * unit := by
  cases x with
  | nan => cases h
  | inf s => cases h
  | fin s n =>
    refine ⟨s, n, rfl, ?_⟩
    have := h.rat
    rw [rat_fin, div_eq_iff unit_posQ.ne'] at this
    exact_mod_cast this

theorem isInt_fin {s : Bool} {n : ℕ} (h : units s n = i * unit) : IsInt (fin s n) i := by
  change some ((units s n : ℚ) / unit) = some (i : ℚ)
  rw [h, Option.some_inj, div_eq_iff unit_posQ.ne']
  push_cast; rfl

theorem roundNat_mul_of_repr {n b : ℕ} (hb : 0 < b) (hn : ReprP n) : roundNat (n * b) b = n := by
  have := roundNat_nearest (n * b) hb hn
  rw [show ((n * b : ℕ) : ℤ) - b * n = 0 by push_cast; ring, abs_zero, abs_nonpos_iff] at this
  push_cast at this
  have hb' : (b : ℤ) ≠ 0 := by omega
  have : (b : ℤ) * (n - roundNat (n * b) b) = 0 := by rw [← this]; ring
  rcases mul_eq_zero.mp this with h | h
  · exact absurd h hb'
  · omega

theorem repr_int (k : ℕ) (hk : k ≤ 2 ^ (sig + 1)) : ReprP (k * unit) ∧ k * unit < limit := by
  constructor
  · exact ⟨k, unitExp, by unfold unit; rfl, hk⟩
  · have h1 : 2 ^ (sig + 1) * unit < limit := by cases ‹Fmt› <;> decide +kernel
    exact lt_of_le_of_lt (Nat.mul_le_mul_right _ hk) h1

theorem round_int (s : Bool) (k b : ℕ) (hb : 0 < b) (hk : k ≤ 2 ^ (sig + 1)) :
    round s (k * unit * b) b = fin s (k * unit) := by
  unfold round
  dsimp only
  obtain ⟨h1, h2⟩ := repr_int k hk
  rw [roundNat_mul_of_repr hb h1, if_pos h2]

theorem IsInt.add (hx : IsInt x i) (hy : IsInt y j) (h : |i + j| ≤ 2 ^ (sig + 1)) :
    IsInt (add x y) (i + j) := by
  obtain ⟨s, n, rfl, hn⟩ := hx.exists_fin
  obtain ⟨t, m, rfl, hm⟩ := hy.exists_fin
  rw [add_fin, hn, hm, ← add_mul]
  generalize i + j = k at h
  unfold ofUnits
  split
  · rename_i h0
    have hu := unit_pos
    have : k = 0 := by
      rcases mul_eq_zero.mp h0 with h | h
      · exact h
      · omega
    subst this
    exact isInt_fin (by unfold units; split <;> simp)
  · have hk : k.natAbs ≤ 2 ^ (sig + 1) := by rw [Int.abs_eq_natAbs] at h; exact_mod_cast h
    have e : (k * (unit : ℤ)).natAbs = k.natAbs * unit * 1 := by
      rw [Int.natAbs_mul, Int.natAbs_natCast, mul_one]
    have e2 : units (decide (k * (unit : ℤ) < 0)) (k.natAbs * unit) = k * unit := by
      have := units_natAbs (k * (unit : ℤ))
      rwa [e, mul_one] at this
    rw [e, round_int _ _ _ one_pos hk]
    exact isInt_fin e2

omit [Fmt] in
theorem units_neg (s : Bool) (n : ℕ) : units (!s) n = - units s n := by
  unfold units; cases s <;> simp

theorem IsInt.neg (hx : IsInt x i) : IsInt (neg x) (-i) := by
  obtain ⟨s, n, rfl, hn⟩ := hx.exists_fin
  exact isInt_fin (by rw [units_neg, hn, neg_mul])

theorem IsInt.sub (hx : IsInt x i) (hy : IsInt y j) (h : |i - j| ≤ 2 ^ (sig + 1)) :
    IsInt (sub x y) (i - j) := by
  rw [sub_eq_add_neg] at *
  exact hx.add hy.neg h

theorem IsInt.mul (hx : IsInt x i) (hy : IsInt y j) (h : |i * j| ≤ 2 ^ (sig + 1)) :
    IsInt (mul x y) (i * j) := by
  obtain ⟨s, n, rfl, hn⟩ := hx.exists_fin
  obtain ⟨t, m, rfl, hm⟩ := hy.exists_fin
  have hnat : ∀ (s : Bool) (n : ℕ) (i : ℤ), units s n = i * unit → n = i.natAbs * unit := by
    intro s n i h
    have : (units s n).natAbs = n := by unfold units; split <;> simp
    rw [← this, h, Int.natAbs_mul, Int.natAbs_natCast]
  have e1 := hnat s n i hn
  have e2 := hnat t m j hm
  have hk : i.natAbs * j.natAbs ≤ 2 ^ (sig + 1) := by
    rw [← Int.natAbs_mul]; rw [Int.abs_eq_natAbs] at h; exact_mod_cast h
  rw [mul_fin, show n * m = i.natAbs * j.natAbs * unit * unit by rw [e1, e2]; ring,
    round_int _ _ _ unit_pos hk]
  refine isInt_fin ?_
  have h1 := units_mul s t i.natAbs m
  have h2 : i.natAbs * m = i.natAbs * j.natAbs * unit := by rw [e2, mul_assoc]
  rw [h2, hm] at h1
  have h3 : units s i.natAbs = i := by
    have hu := unit_pos
    have h4 : units s (i.natAbs * unit) = units s i.natAbs * unit := by
      unfold units; split <;> push_cast <;> ring
    rw [e1, h4] at hn
    exact mul_right_cancel₀ (by omega : (unit : ℤ) ≠ 0) hn
  rw [h3] at h1
  have : (units (s ^^ t) (i.natAbs * j.natAbs * unit) : ℚ) = ((i * j * unit : ℤ) : ℚ) := by
    rw [h1]; push_cast; ring
  exact_mod_cast this

theorem chk_ok {r : Flt} {v : ℚ} (h : IsInt r i) (hv : v = i) : chk r v = .ok r := by
  unfold chk; rw [if_pos (by rw [hv]; exact h)]

variable (powi : Flt → Int → Flt)

theorem add_ok (hx : IsInt x i) (hy : IsInt y j) (h : |i + j| ≤ 2 ^ (sig + 1)) :
    ∃ z, (exact powi).add x y = .ok z ∧ IsInt z (i + j) :=
  ⟨_, chk_ok (hx.add hy h) (by rw [hx.rat, hy.rat]; push_cast; rfl), hx.add hy h⟩

theorem neg_ok (hx : IsInt x i) : ∃ z, (exact powi).neg x = .ok z ∧ IsInt z (-i) :=
  ⟨_, chk_ok hx.neg (by rw [hx.rat]; push_cast; rfl), hx.neg⟩

theorem mul_ok (hx : IsInt x i) (hy : IsInt y j) (h : |i * j| ≤ 2 ^ (sig + 1)) :
    ∃ z, (exact powi).mul x y = .ok z ∧ IsInt z (i * j) :=
  ⟨_, chk_ok (hx.mul hy h) (by rw [hx.rat, hy.rat]; push_cast; rfl), hx.mul hy h⟩

/-- `IntData` of the checked arithmetic. -/
def intData : @IntData Flt (exact powi) (exactF64 powi) :=
  let _ := exact powi
  let _ := exactF64 powi
  { B := 2 ^ (sig + 1)
    isInt := IsInt
    val_eq := fun h => h.rat
    isInt_zero := isInt_zero
    add_ok := add_ok powi
    neg_ok := fun h _ => neg_ok powi h
    mul_ok := mul_ok powi }

theorem isInt_of_val {x : Flt} (hw : x.value.isSome) (hv : x.rat = (i : ℚ)) : IsInt x i := by
  unfold IsInt; rw [value_some hw, hv]

/-- The entries of an integer matrix are integers. -/
theorem intMat_of_is {M : Mat Flt} {n m : ℕ} {a : ℕ → ℕ → ℤ}
    (h : @Mat.Is _ (exact powi) ℚ _ (exactF64 powi) M n m fun i j => (a i j : ℚ)) :
    @IntData.IntMat _ (exact powi) (exactF64 powi) (intData powi) M n m a := by
  let _ := exact powi
  let _ := exactF64 powi
  refine ⟨h, fun x hx => ?_⟩
  obtain ⟨k, hk⟩ := List.getElem?_of_mem hx
  obtain ⟨y, hy, hw, hv⟩ := h.entries (k := k)
    (by rw [← h.len]; exact (List.getElem?_eq_some_iff.mp hk).1)
  rw [hk] at hy
  cases hy
  exact ⟨_, isInt_of_val hw hv⟩

end Flt
end Verif
