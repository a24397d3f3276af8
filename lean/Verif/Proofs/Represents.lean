import Verif.Proofs.Mat
import Mathlib.Data.Matrix.Basic
import Mathlib.Data.Fin.Tuple.Basic

/-!
# When a `Mat` represents a mathematical matrix

This is the vocabulary in which the properties of the linear algebra are stated.
-/

set_option linter.unusedSectionVars false

namespace Verif

open Res LawfulRField LinAlg

variable {F : Type} [RField F] {K : Type} [Field K] [LawfulRField F K]

namespace Mat

/-- The value `M` of the program is the `n × m` matrix `A`: its dimensions and the length of its
entry vector are right (and are `usize` numbers), and the entry at offset `i * m + j` is a
well-formed field element of value `A i j`. -/
structure Represents {n m : ℕ} (M : Mat F) (A : Matrix (Fin n) (Fin m) K) : Prop where
  rows : M.rows = n
  cols : M.cols = m
  len : M.entries.length = n * m
  rows_lt : n < 18446744073709551616
  cols_lt : m < 18446744073709551616
  len_lt : n * m < 18446744073709551616
  entry : ∀ (i : Fin n) (j : Fin m), ∃ x : F, M.entries[(i : ℕ) * m + j]? = some x ∧ wf x ∧ val x = A i j

/-- A column vector: a matrix with one column. -/
def RepresentsVec {n : ℕ} (M : Mat F) (v : Fin n → K) : Prop :=
  M.Represents (Matrix.of fun i (_ : Fin 1) => v i)

end Mat

section
omit [LawfulRField F K] [RField F]

/-- The matrix `A` as a function on all numbers. -/
def matExt {n m : ℕ} (A : Matrix (Fin n) (Fin m) K) (i j : ℕ) : K :=
  if h : i < n ∧ j < m then A ⟨i, h.1⟩ ⟨j, h.2⟩ else 0

theorem matExt_fin {n m : ℕ} (A : Matrix (Fin n) (Fin m) K) (i : Fin n) (j : Fin m) :
    matExt A i j = A i j := by
  rw [matExt, dif_pos ⟨i.2, j.2⟩]

theorem matExt_of_lt {n m : ℕ} (A : Matrix (Fin n) (Fin m) K) {i j : ℕ} (hi : i < n) (hj : j < m) :
    matExt A i j = A ⟨i, hi⟩ ⟨j, hj⟩ := by
  rw [matExt, dif_pos ⟨hi, hj⟩]

end

namespace Mat
variable {M : Mat F} {n m : ℕ} {A : Matrix (Fin n) (Fin m) K} {a : ℕ → ℕ → K}

theorem Represents.is (h : M.Represents A) : M.Is n m (matExt A) where
  rows := h.rows
  cols := h.cols
  len := h.len
  rows_lt := h.rows_lt
  cols_lt := h.cols_lt
  len_lt := h.len_lt
  entry i j hi hj := by
    rw [matExt_of_lt A hi hj]
    exact h.entry ⟨i, hi⟩ ⟨j, hj⟩

theorem Is.represents (h : M.Is n m a) (hA : ∀ (i : Fin n) (j : Fin m), a i j = A i j) :
    M.Represents A where
  rows := h.rows
  cols := h.cols
  len := h.len
  rows_lt := h.rows_lt
  cols_lt := h.cols_lt
  len_lt := h.len_lt
  entry i j := by
    obtain ⟨x, h1, h2, h3⟩ := h.entry i j i.2 j.2
    exact ⟨x, h1, h2, h3.trans (hA i j)⟩

/-- A matrix of well-formed entries represents the matrix of their values. -/
theorem represents_of {rows cols : ℕ} {entries : List F} (hr : rows < 18446744073709551616)
    (hc : cols < 18446744073709551616) (hl : entries.length < 18446744073709551616)
    (he : entries.length = rows * cols) (hw : ∀ x ∈ entries, wf x) :
    (⟨entries, rows, cols⟩ : Mat F).Represents (n := rows) (m := cols)
      (fun i j => val (entries.getD ((i : ℕ) * cols + j) RField.zero)) where
  rows := rfl
  cols := rfl
  len := he
  rows_lt := hr
  cols_lt := hc
  len_lt := he ▸ hl
  entry i j := by
    have : (i : ℕ) * cols + j < entries.length := he ▸ rowMajor_lt i.2 j.2
    refine ⟨entries[(i : ℕ) * cols + j], List.getElem?_eq_getElem this, hw _ (List.getElem_mem _), ?_⟩
    rw [List.getD_eq_getElem?_getD, List.getElem?_eq_getElem this]; rfl

/-- The matrix represented is determined. -/
theorem Represents.unique {A' : Matrix (Fin n) (Fin m) K} (h : M.Represents A) (h' : M.Represents A') :
    A = A' := by
  ext i j
  obtain ⟨x, h1, _, h2⟩ := h.entry i j
  obtain ⟨y, h3, _, h4⟩ := h'.entry i j
  rw [h1] at h3; cases h3
  rw [← h2, ← h4]

end Mat
end Verif
