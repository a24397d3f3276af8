import Verif.Props.F64

/-!
# Properties C92–C93: elimination without any law of arithmetic, and over `f32` and `f64`
-/

namespace Verif
open Res LinAlg

section
variable {F : Type} [RField F] [EpsilonEquality F] [StabilityCmp F] {E : Panic → Prop} [Tame F E]

/-- C92. Whatever the coefficient type, `lu` of an `n × m` matrix ends, and unless an operation on
coefficients panics it returns a permutation matrix `p`, a lower triangular `n × n` matrix `l` (the
entries above the diagonal are exactly zero) whose diagonal entries are one or were accepted as
nonzero, and an `n × m` matrix `u`. -/
theorem C92_lu {M : Mat F} {n m : ℕ} (h : M.Shape n m) (hn : n * n < 18446744073709551616) :
    Spec E M.lu (fun d =>
      (∃ π : Equiv.Perm (Fin n), d.p.Shape n n ∧ ∀ i j : Fin n, d.p.get i j =
        .ok (if π i = j then RField.one else RField.zero)) ∧
      (d.l.Shape n n ∧ (∀ i j, i < j → j < n → d.l.get i j = .ok RField.zero) ∧
        ∀ i, i < n → ∃ x, d.l.get i i = .ok x ∧
          (x = RField.one ∨ EpsilonEquality.epsilonEquals x (RField.zero : F) = .ok false)) ∧
      d.u.Shape n m) := by
  refine (h.lu hn).imp ?_
  rintro d ⟨π, l, hπ, hp, hl, hu, hlt, hld⟩
  refine ⟨⟨Equiv.ofBijective (fun i => ⟨π i, hπ.1 i i.2⟩) (Finite.injective_iff_bijective.mp
      fun i j hij => Fin.ext (hπ.2 i j i.2 j.2 (congrArg Fin.val hij))), hp.shape, fun i j => ?_⟩,
    ⟨hl.shape, fun i j hij hj => ?_, fun i hi => ⟨l i i, hl.get hi hi, hld i hi⟩⟩, hu⟩
  · rw [hp.get i.2 j.2]
    simp only [Equiv.ofBijective_apply, Fin.ext_iff]
  · rw [hl.get (hij.trans hj) hj, hlt i j hij hj]

/-- C92. `row_echelon` and `to_rref` keep the shapes and the original matrix, the rank is at most the
number of rows, kernel vectors have as many entries as the matrix has columns and range vectors as
many as it has rows. -/
theorem C92_row_echelon {M : Mat F} {n m : ℕ} (h : M.Shape n m) (hn : n * n < 18446744073709551616)
    (order : List ℕ → List ℕ) (ho : ∀ l, (order l).Perm l) :
    Spec E (do
        let f ← M.rowEchelon
        let k ← f.rank
        let g ← f.toRref
        let ker ← g.computeKernel
        let ran ← g.computeRange order
        pure (f, k, g, ker, ran)) (fun (f, k, g, ker, ran) =>
      f.Shape M n m ∧ k ≤ n ∧ g.Shape M n m ∧ (∀ v ∈ ker, v.Shape m 1) ∧ ∀ v ∈ ran, v.Shape n 1) :=
  (h.rowEchelon hn).bind fun _ hf => hf.rank.bind fun _ hk => hf.toRref.bind fun _ hg =>
    hg.computeKernel.bind fun _ hker => (hg.computeRange h order ho).bind fun _ hran =>
      ⟨hf, hk, hg, hker, hran⟩

end

set_option exponentiation.threshold 3000

namespace Flt
open Fmt
variable [Fmt]

/-- Over `f32` and `f64` the only panic of an operation used in elimination is that of a comparison with a
NaN in the search for a pivot. -/
theorem tame (b : Build) (powi : Flt → Int → Flt) :
    letI := field b powi
    Tame Flt (· = .unwrapNone) := by
  let _ := field b powi
  exact ⟨fun _ _ => trivial, fun _ _ => trivial, fun _ _ => trivial, fun _ _ => trivial,
    fun _ _ => trivial, fun _ _ _ => rfl⟩

/-- C92. Over `f32` and `f64`, in both builds, `lu` ends; it panics only in the search for a pivot. -/
theorem C92_float (b : Build) (powi : Flt → Int → Flt) {M : Mat Flt} {n m : ℕ} :
    letI := field b powi
    M.Shape n m → n * n < 18446744073709551616 →
    Spec (· = .unwrapNone) M.lu (fun d => d.p.Shape n n ∧ d.l.Shape n n ∧ d.u.Shape n m ∧
      (∀ i j, i < j → j < n → d.l.get i j = .ok zero) ∧
      ∀ i, i < n → ∃ x, d.l.get i i = .ok x ∧ (x = one ∨ epsilonEquals x zero = false)) := by
  let _ := field b powi
  have := tame b powi
  intro h hn
  refine (C92_lu h hn).imp ?_
  rintro d ⟨⟨_, hp, _⟩, ⟨hl, hlt, hld⟩, hu⟩
  refine ⟨hp, hl, hu, hlt, fun i hi => ?_⟩
  obtain ⟨x, hx, hx'⟩ := hld i hi
  exact ⟨x, hx, hx'.imp id fun h => Res.ok.inj h⟩

example : letI := field .debug (fun _ _ => nan)
    (⟨[one, one, one, zero], 2, 2⟩ : Mat Flt).Shape 2 2 :=
  ⟨rfl, rfl, rfl, by norm_num, by norm_num, by norm_num⟩

/-! ## C93 What fails over `f32` and `f64` -/

/-- `49.0` in `f64` and `41.0` in `f32`, the least whole numbers that give less than `1.0` when multiplied
with their inverse. -/
def misfit : Flt := fin false ((match ‹Fmt› with | .f32 => 41 | .f64 => 49) * unit)

/-- The `2 × 1` matrix with both entries `misfit`. -/
def matMisfit : Mat Flt := ⟨[misfit, misfit], 2, 1⟩

/-- The `3 × 2` matrix with the rows `(2 EPSILON, 2^(maxExp - 1))`, `(0, 1)`, `(0, 1)`. -/
def matBig : Mat Flt :=
  ⟨[fin false (2 ^ (unitExp - sig + 1)), fin false (2 ^ (maxExp - 1 + unitExp)), zero, one, zero, one], 3, 2⟩

/-- All entries are finite numbers. -/
def AllFinite (M : Mat Flt) : Prop := ∀ x ∈ M.entries, x.Valid ∧ x.value ≠ none

theorem allFinite_misfit : AllFinite matMisfit := by
  intro x hx
  simp only [matMisfit, List.mem_cons, List.not_mem_nil, or_false, or_self] at hx
  subst hx
  exact ⟨by fmt_decide, by simp [value, misfit]⟩

theorem allFinite_big : AllFinite matBig := by
  intro x hx
  simp only [matBig, List.mem_cons, List.not_mem_nil, or_false] at hx
  rcases hx with rfl | rfl | rfl | rfl | rfl | rfl <;>
    exact ⟨by fmt_decide, by simp [value, zero, one]⟩

/-- C93. `u` need not be upper triangular: `misfit * (1.0 / misfit)` is not `1.0`, so that a multiple of the
pivot row leaves a remainder below the pivot. -/
theorem C93_refuted :
    ¬ ∀ (b : Build) (powi : Flt → Int → Flt) (M : Mat Flt) (d : LU Flt), letI := field b powi;
      AllFinite M → M.lu = .ok d → d.u.isUpperTriangular = .ok true := by
  intro h
  have h1 := fun d => h .debug (fun _ _ => nan) matMisfit d allFinite_misfit
  let _ := field .debug (fun _ _ => nan)
  have h2 : (matMisfit.lu >>= fun d => d.u.isUpperTriangular) = .ok false := by fmt_decide
  rw [bind_eq_ok] at h2
  obtain ⟨d, hd, h2⟩ := h2
  have := h1 d hd
  rw [h2] at this
  cases this

/-- C93. The rank can exceed the number of columns, and then `nullity` panics in a checked build and
wraps to `2⁶⁴ - 1` in an unchecked one. -/
theorem C93_rank_refuted :
    (letI := field .debug (fun _ _ => nan)
     (matMisfit.rowEchelon >>= fun f => f.rank) = .ok 2 ∧
     (matMisfit.rowEchelon >>= fun f => f.nullity) = .panic .overflowUsize) ∧
    (letI := field .release (fun _ _ => nan)
     (matMisfit.rowEchelon >>= fun f => f.nullity) = .ok 18446744073709551615) := by
  refine ⟨⟨?_, ?_⟩, ?_⟩ <;> fmt_decide

omit [Fmt] in
theorem panic_of_bind {α : Type} {x : Res α} {e : Panic}
    (h : (x >>= fun _ => Res.ok ()) = .panic e) : x = .panic e := by
  cases x with
  | ok a => cases h
  | panic e' => exact congrArg Res.panic (Res.panic.inj h)
  | diverge => cases h

/-- C93. A matrix of finite numbers can make `lu` and `row_echelon` panic: scaling the pivot row by the
inverse of a small pivot overflows, and infinity times zero is a NaN. -/
theorem C93_panic_refuted (b : Build) :
    letI := field b (fun _ _ => nan)
    AllFinite matBig ∧ matBig.lu = .panic .unwrapNone ∧ matBig.rowEchelon = .panic .unwrapNone := by
  refine ⟨allFinite_big, panic_of_bind ?_, panic_of_bind ?_⟩ <;> cases b <;> fmt_decide

end Flt
end Verif
