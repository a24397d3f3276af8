import Verif.Proofs.Weigh
import Mathlib.Algebra.BigOperators.Group.List.Basic

/-!
# Factors of monomials

A factor for every variable gives a factor for every monomial.  Sums of exponents that wrap around are harmless
if the 256th power of every factor is one.
-/

namespace Verif
open Res

variable {U : Type} [CommGroup U]

/-- The product of the powers of the factors `a k`, `a (k + 1)`, .. -/
def powersFrom (a : ℕ → U) : ℕ → List ℕ → U
  | _, [] => 1
  | k, d :: ds => a k ^ d * powersFrom a (k + 1) ds

/-- The factor of a monomial when variable `i` has the factor `a i`. -/
def monomialFactor (a : ℕ → U) (m : MDeg) : U := powersFrom a 0 m

theorem powersFrom_append (a : ℕ → U) (k : ℕ) (l l' : List ℕ) :
    powersFrom a k (l ++ l') = powersFrom a k l * powersFrom a (k + l.length) l' := by
  induction l generalizing k with
  | nil => simp [powersFrom]
  | cons d l ih =>
    simp only [List.cons_append, powersFrom, ih, List.length_cons, mul_assoc]
    rw [show k + 1 + l.length = k + (l.length + 1) by omega]

theorem powersFrom_zeros (a : ℕ → U) (k n : ℕ) : powersFrom a k (List.replicate n 0) = 1 := by
  induction n generalizing k with
  | zero => rfl
  | succ n ih => simp [List.replicate_succ, powersFrom, ih]

/-- What an item of `zip_longest` contributes to a product. -/
def EitherOrBoth.times (x : U) : EitherOrBoth ℕ → U
  | .both a b => x ^ a * x ^ b
  | .left a => x ^ a
  | .right b => x ^ b

/-- What an item of `zip_longest` contributes to a quotient. -/
def EitherOrBoth.over (x : U) : EitherOrBoth ℕ → U
  | .both a b => x ^ a * (x ^ b)⁻¹
  | .left a => x ^ a
  | .right b => (x ^ b)⁻¹

/-- The product of what the items contribute. -/
def itemsFrom (c : U → EitherOrBoth ℕ → U) (a : ℕ → U) : ℕ → List (EitherOrBoth ℕ) → U
  | _, [] => 1
  | k, x :: xs => c (a k) x * itemsFrom c a (k + 1) xs

theorem itemsFrom_times (a : ℕ → U) (k : ℕ) (l l' : List ℕ) :
    itemsFrom EitherOrBoth.times a k (zipLongest l l') = powersFrom a k l * powersFrom a k l' := by
  induction l generalizing k l' with
  | nil =>
    induction l' generalizing k with
    | nil => simp [zipLongest, itemsFrom, powersFrom]
    | cons b bs ih =>
      have := ih (k + 1)
      simp only [zipLongest, List.map_cons, itemsFrom, powersFrom, one_mul] at this ⊢
      rw [this]; rfl
  | cons x xs ih =>
    cases l' with
    | nil =>
      have h : ∀ (k : ℕ) (l : List ℕ), itemsFrom EitherOrBoth.times a k (l.map .left) = powersFrom a k l := by
        intro k l
        induction l generalizing k with
        | nil => rfl
        | cons y ys ih => simp only [List.map_cons, itemsFrom, powersFrom, ih, EitherOrBoth.times]
      simp only [zipLongest]
      rw [h, show powersFrom a k [] = 1 from rfl, mul_one]
    | cons y ys =>
      simp only [zipLongest, itemsFrom, powersFrom, EitherOrBoth.times, ih]
      rw [mul_mul_mul_comm]

theorem itemsFrom_over (a : ℕ → U) (k : ℕ) (l l' : List ℕ) :
    itemsFrom EitherOrBoth.over a k (zipLongest l l') = powersFrom a k l * (powersFrom a k l')⁻¹ := by
  induction l generalizing k l' with
  | nil =>
    induction l' generalizing k with
    | nil => simp [zipLongest, itemsFrom, powersFrom]
    | cons b bs ih =>
      have := ih (k + 1)
      simp only [zipLongest, List.map_cons, itemsFrom, powersFrom, one_mul, mul_inv] at this ⊢
      rw [this]; rfl
  | cons x xs ih =>
    cases l' with
    | nil =>
      have h : ∀ (k : ℕ) (l : List ℕ), itemsFrom EitherOrBoth.over a k (l.map .left) = powersFrom a k l := by
        intro k l
        induction l generalizing k with
        | nil => rfl
        | cons y ys ih => simp only [List.map_cons, itemsFrom, powersFrom, ih, EitherOrBoth.over]
      simp only [zipLongest]
      rw [h, show powersFrom a k [] = 1 from rfl, inv_one, mul_one]
    | cons y ys =>
      simp only [zipLongest, itemsFrom, powersFrom, EitherOrBoth.over, ih, mul_inv]
      rw [mul_mul_mul_comm]

theorem powersFrom_push (a : ℕ → U) (degs : List ℕ) (z c : ℕ) :
    powersFrom a 0 (degs ++ List.replicate z 0 ++ [c]) = powersFrom a 0 degs * a (degs.length + z) ^ c := by
  rw [powersFrom_append, powersFrom_append, powersFrom_zeros]
  simp [powersFrom]

theorem length_push (degs : List ℕ) (z c : ℕ) :
    (degs ++ List.replicate z 0 ++ [c]).length + 0 = degs.length + z + 1 := by simp; omega

theorem addLoop_factor {b : Build} {a : ℕ → U} (ha : b = .release → ∀ i, a i ^ 256 = 1)
    (l : List (EitherOrBoth ℕ)) (z : ℕ) (degs : List ℕ) :
    Holds (fun m => powersFrom a 0 m =
      powersFrom a 0 degs * itemsFrom EitherOrBoth.times a (degs.length + z) l) (MDeg.addLoop b l z degs) := by
  induction l generalizing z degs with
  | nil => exact Holds.ok (by simp [itemsFrom])
  | cons x l ih =>
    have push : ∀ (c : ℕ), a (degs.length + z) ^ c = x.times (a (degs.length + z)) →
        Holds (fun m => powersFrom a 0 m =
          powersFrom a 0 degs * itemsFrom EitherOrBoth.times a (degs.length + z) (x :: l))
          (MDeg.addLoop b l 0 (degs ++ List.replicate z 0 ++ [c])) := by
      intro c hc
      refine (ih _ _).imp fun m h => ?_
      rw [h, powersFrom_push, length_push, itemsFrom, hc, mul_assoc]
    unfold MDeg.addLoop
    split
    · exact (ih _ _).imp fun m h => by rw [h]; simp [itemsFrom, EitherOrBoth.times, add_assoc]
    · exact (ih _ _).imp fun m h => by rw [h]; simp [itemsFrom, EitherOrBoth.times, add_assoc]
    · exact (ih _ _).imp fun m h => by rw [h]; simp [itemsFrom, EitherOrBoth.times, add_assoc]
    · refine Holds.bind (P := fun c : ℕ => a (degs.length + z) ^ c = a (degs.length + z) ^ (_ + _)) ?_
        fun c hc => push c (hc.trans (pow_add _ _ _))
      unfold U8.norm
      split
      · exact Holds.ok rfl
      · cases b with
        | debug => exact Holds.panic
        | release =>
          refine Holds.ok ?_
          rename_i p q _ _
          conv_rhs => rw [← Nat.mod_add_div (p + q) 256, pow_add, pow_mul, ha rfl, one_pow, mul_one]
    · exact push _ rfl
    · exact push _ rfl

theorem checkedSubLoop_factor (a : ℕ → U) (l : List (EitherOrBoth ℕ)) (z : ℕ) (degs m : List ℕ)
    (h : MDeg.checkedSubLoop l z degs = some m) :
    powersFrom a 0 m = powersFrom a 0 degs * itemsFrom EitherOrBoth.over a (degs.length + z) l := by
  induction l generalizing z degs with
  | nil =>
    obtain rfl : degs = m := by simpa [MDeg.checkedSubLoop] using h
    simp [itemsFrom]
  | cons x l ih =>
    have push : ∀ (c : ℕ), a (degs.length + z) ^ c = x.over (a (degs.length + z)) →
        MDeg.checkedSubLoop l 0 (degs ++ List.replicate z 0 ++ [c]) = some m →
        powersFrom a 0 m =
          powersFrom a 0 degs * itemsFrom EitherOrBoth.over a (degs.length + z) (x :: l) := by
      intro c hc h
      rw [ih _ _ h, powersFrom_push, length_push, itemsFrom, hc, mul_assoc]
    cases x with
    | both p q =>
      unfold MDeg.checkedSubLoop at h
      split at h
      · cases h
      · rename_i hc
        obtain rfl : p = q := by simpa using hc
        rw [ih _ _ h]
        simp [itemsFrom, EitherOrBoth.over, add_assoc]
      · rename_i hc
        have hlt : q < p := by simpa [compare_gt_iff_gt] using hc
        refine push _ ?_ h
        have : a (degs.length + z) ^ p = a (degs.length + z) ^ (p - q) * a (degs.length + z) ^ q := by
          rw [← pow_add]; congr 1; omega
        rw [EitherOrBoth.over, this, mul_inv_cancel_right]
    | left p => unfold MDeg.checkedSubLoop at h; exact push _ rfl h
    | right q => unfold MDeg.checkedSubLoop at h; cases h

/-- Factors of monomials are multiplicative. -/
theorem monomialFactor_character {b : Build} {a : ℕ → U} (ha : b = .release → ∀ i, a i ^ 256 = 1) :
    Character b (monomialFactor a) where
  zero := rfl
  add := by
    intro m n k h
    have := addLoop_factor ha (zipLongest m n) 0 [] k h
    unfold monomialFactor
    rw [this]
    simp only [powersFrom, one_mul, List.length_nil, zero_add, itemsFrom_times]
  sub := by
    intro m n k h
    unfold monomialFactor
    unfold MDeg.checkedSub at h
    split at h
    · rename_i hz
      obtain rfl : n = [] := by simpa [MDeg.isZero] using hz
      obtain rfl : m = k := by simpa using h
      simp [powersFrom]
    · split at h
      · cases h
      · have := checkedSubLoop_factor a _ _ _ _ h
        rw [this]
        simp only [powersFrom, one_mul, List.length_nil, zero_add, itemsFrom_over, inv_mul_cancel_right]

end Verif
