import Verif.LinAlg.Eq
import Verif.Props.F64Poly
import Verif.Props.Mat

/-!
# Theorems C148 and C149: `==` on terms and matrices
-/

namespace Verif

open Res

/-- What `==` on two vectors of entries is. -/
theorem all_zip_eq {F : Type} (r : F → F → Bool) (l l' : List F) :
    (l.length == l'.length && (l.zip l').all fun (x, y) => r x y) = true ↔
      List.Forall₂ (fun x y => r x y = true) l l' := by
  induction l generalizing l' with
  | nil => cases l' <;> simp
  | cons x l ih =>
    cases l' with
    | nil => simp
    | cons y l' =>
      have := ih l'
      simp only [Bool.and_eq_true, beq_iff_eq] at this
      simp only [List.length_cons, Bool.and_eq_true, beq_iff_eq, Nat.add_right_cancel_iff, List.zip_cons_cons,
        List.all_cons, List.forall₂_cons]
      rw [← this]
      tauto

theorem Mat.eq_iff {F : Type} [RField F] (M N : Mat F) : M.eq N = true ↔
    List.Forall₂ (fun x y => RField.beq x y = true) M.entries N.entries ∧ M.rows = N.rows ∧ M.cols = N.cols := by
  rw [← all_zip_eq]
  unfold Mat.eq
  simp [and_assoc]

theorem forall₂_eq_iff {F : Type} (l l' : List F) : List.Forall₂ (· = ·) l l' ↔ l = l' := by
  rw [List.forall₂_eq_eq_eq]

/-! ## C148 terms -/

/-- C148. Terms of rationals are `==` exactly when they are the same. -/
theorem C148_rational (b : Build) (s t : Term Rational) :
    letI := Rational.field b
    s.eq t = true ↔ s = t := by
  let _ := Rational.field b
  unfold Term.eq
  rcases s with ⟨c, d⟩
  rcases t with ⟨c', d'⟩
  simp [RField.beq]

/-- C148. The same over an exact field. -/
theorem C148_exact (b : Build) (K : Type) [Field K] [DecidableEq K] (s t : Term K) :
    letI := exactField b K
    s.eq t = true ↔ s = t := by
  let _ := exactField b K
  unfold Term.eq
  rcases s with ⟨c, d⟩
  rcases t with ⟨c', d'⟩
  simp [RField.beq]

namespace Flt

variable [Fmt]

theorem eq_comm' (x y : Flt) : eq x y = eq y x := by
  cases x <;> cases y <;> simp only [eq, partialCmp]
  · rename_i s t; cases s <;> cases t <;> rfl
  · rename_i s _ _; cases s <;> rfl
  · rename_i _ _ s; cases s <;> rfl
  · rename_i s n t m
    have h := Std.OrientedCmp.eq_swap (cmp := (compare : Int → Int → Ordering)) (a := units s n) (b := units t m)
    rw [h]
    cases compare (units t m) (units s n) <;> rfl

theorem eq_fin_iff (s t : Bool) (n m : ℕ) : eq (fin s n) (fin t m) = true ↔ units s n = units t m := by
  simp [eq, partialCmp]

/-- `==` on floats: equal values, or the same infinity. -/
theorem eq_iff (x y : Flt) : eq x y = true ↔
    (∃ p : ℚ, x.value = some p ∧ y.value = some p) ∨ ∃ s, x = inf s ∧ y = inf s := by
  have hu : (0 : ℚ) < unit := by exact_mod_cast unit_pos
  cases x with
  | nan => simp [eq, partialCmp, value]
  | inf s =>
    cases y with
    | nan => simp [eq, partialCmp, value]
    | inf t => cases s <;> cases t <;> simp [eq, partialCmp, value]
    | fin t m => cases s <;> simp [eq, partialCmp, value]
  | fin s n =>
    cases y with
    | nan => simp [eq, partialCmp, value]
    | inf t => cases t <;> simp [eq, partialCmp, value]
    | fin t m =>
      rw [eq_fin_iff]
      simp only [value, Option.some.injEq, reduceCtorEq, false_and, exists_false, or_false]
      constructor
      · intro h; exact ⟨_, rfl, by rw [h]⟩
      · rintro ⟨p, rfl, h⟩
        have := (div_left_inj' hu.ne').mp h
        exact_mod_cast this.symm

theorem eq_refl_iff (x : Flt) : eq x x = true ↔ x ≠ nan := by
  cases x with
  | nan => simp [eq, partialCmp]
  | inf s => cases s <;> simp [eq, partialCmp]
  | fin s n => simp [eq_fin_iff]

theorem eq_trans' {x y z : Flt} (h : eq x y = true) (h' : eq y z = true) : eq x z = true := by
  rw [eq_iff] at *
  rcases h with ⟨p, h1, h2⟩ | ⟨s, h1, h2⟩ <;> rcases h' with ⟨q, h3, h4⟩ | ⟨t, h3, h4⟩
  · rw [h2] at h3
    cases h3
    exact .inl ⟨p, h1, h4⟩
  · rw [h3] at h2; cases h2
  · rw [h2] at h3; cases h3
  · rw [h2] at h3; cases h3; exact .inr ⟨s, h1, h4⟩

/-- C148 as stated fails: `Eq` is implemented for terms over floats, but a term with coefficient NaN is
not `==` to itself. -/
theorem C148_refuted (b : Build) (powi : Flt → Int → Flt) :
    letI := field b powi
    ¬ ∀ t : Term Flt, t.eq t = true := by
  intro h
  have := h ⟨nan, []⟩
  simp [Term.eq, RField.beq, eq, partialCmp] at this

/-- C148, what holds for `f32` and `f64`: `==` means the same multidegree and either equal values or the
same infinity as coefficients; it is symmetric and transitive, and a term is `==` to itself exactly when
its coefficient is not NaN. -/
theorem C148_float_partial (b : Build) (powi : Flt → Int → Flt) :
    letI := field b powi
    (∀ s t : Term Flt, s.eq t = true ↔ s.mdeg = t.mdeg ∧
      ((∃ p : ℚ, s.coef.value = some p ∧ t.coef.value = some p) ∨ ∃ i, s.coef = inf i ∧ t.coef = inf i)) ∧
    (∀ s t : Term Flt, s.eq t = t.eq s) ∧
    (∀ s t u : Term Flt, s.eq t = true → t.eq u = true → s.eq u = true) ∧
    (∀ t : Term Flt, t.eq t = true ↔ t.coef ≠ nan) := by
  let _ := field b powi
  have h : ∀ s t : Term Flt, s.eq t = (eq s.coef t.coef && decide (s.mdeg = t.mdeg)) := fun _ _ => rfl
  refine ⟨fun s t => ?_, fun s t => ?_, fun s t u => ?_, fun t => ?_⟩
  · rw [h, Bool.and_eq_true, decide_eq_true_eq, eq_iff, and_comm]
  · rw [h, h, eq_comm', decide_eq_decide.mpr eq_comm]
  · simp only [h, Bool.and_eq_true, decide_eq_true_eq]
    rintro ⟨h1, h2⟩ ⟨h3, h4⟩
    exact ⟨eq_trans' h1 h3, h2.trans h4⟩
  · rw [h]
    simp [eq_refl_iff]

/-- Zeros of both signs are `==`. -/
example (b : Build) (powi : Flt → Int → Flt) : letI := field b powi
    (⟨fin false 0, [1]⟩ : Term Flt).eq ⟨fin true 0, [1]⟩ = true ∧
    (⟨one, [1]⟩ : Term Flt).eq ⟨one, [2]⟩ = false ∧ (⟨one, [1]⟩ : Term Flt).eq ⟨misfit, [1]⟩ = false := by
  refine ⟨?_, ?_, ?_⟩ <;> simp only [Term.eq, RField.beq] <;> fmt_decide

end Flt

/-! ## C149 matrices -/

/-- C149. Over an exact field matrices are `==` exactly when they are the same. -/
theorem C149_exact (b : Build) (K : Type) [Field K] [DecidableEq K] (M N : Mat K) :
    letI := exactField b K
    M.eq N = true ↔ M = N := by
  let _ := exactField b K
  rw [Mat.eq_iff]
  rcases M with ⟨l, r, c⟩
  rcases N with ⟨l', r', c'⟩
  simp only [RField.beq, decide_eq_true_eq, Mat.mk.injEq]
  rw [forall₂_eq_iff]

/-- C149. Over the rationals `==` is identity of the representations, so it implies equality of the
matrices. -/
theorem C149_rational (b : Build) (M N : Mat Rational) :
    letI := Rational.field b
    M.eq N = true ↔ M = N := by
  let _ := Rational.field b
  rw [Mat.eq_iff]
  rcases M with ⟨l, r, c⟩
  rcases N with ⟨l', r', c'⟩
  simp only [RField.beq, decide_eq_true_eq, Mat.mk.injEq]
  rw [forall₂_eq_iff]

/-- C149 as stated fails over the rationals: the sum `[1/2] + [1/2]` and the identity matrix represent the
same matrix, and are `epsilon_equals`, but not `==`. -/
theorem C149_refuted :
    letI := Rational.field .debug
    letI := Rational.lawful
    ¬ ∀ (M N : Mat Rational) (A : Matrix (Fin 1) (Fin 1) ℚ), M.Represents A → N.Represents A →
      M.eq N = true := by
  let _ := Rational.field .debug
  let _ := Rational.lawful
  intro h
  have hr := fun (x : Rational) (hx : LawfulRField.wf x) =>
    Mat.represents_of (F := Rational) (rows := 1) (cols := 1) (entries := [x]) (by decide) (by decide) (by simp)
      rfl (fun y hy => List.mem_singleton.mp hy ▸ hx)
  have e : (fun i j => LawfulRField.val (([⟨4, 4⟩] : List Rational).getD ((i : Fin 1).val * 1 + (j : Fin 1).val)
      RField.zero) : Matrix (Fin 1) (Fin 1) ℚ) =
      fun i j => LawfulRField.val (([⟨1, 1⟩] : List Rational).getD ((i : Fin 1).val * 1 + (j : Fin 1).val)
      RField.zero) := by
    funext i j
    fin_cases i; fin_cases j
    show Rational.val ⟨4, 4⟩ = Rational.val ⟨1, 1⟩
    norm_num [Rational.val]
  have h2 := hr ⟨4, 4⟩ ⟨by decide, by decide⟩
  have h3 := hr ⟨1, 1⟩ ⟨by decide, by decide⟩
  rw [e] at h2
  have := h _ _ _ h2 h3
  revert this
  decide +kernel

/-- The matrix of `C149_refuted` is a sum of matrices in lowest terms, and `epsilon_equals` the
identity. -/
example :
    letI := Rational.field .debug
    letI := Rational.epsilonEquality
    (⟨[⟨1, 2⟩], 1, 1⟩ : Mat Rational).add ⟨[⟨1, 2⟩], 1, 1⟩ = .ok ⟨[⟨4, 4⟩], 1, 1⟩ ∧
    (⟨[⟨4, 4⟩], 1, 1⟩ : Mat Rational).epsilonEquals ⟨[⟨1, 1⟩], 1, 1⟩ = .ok true := by decide +kernel

namespace Flt

variable [Fmt]

/-- C149, what holds for `f32` and `f64`: `==` is symmetric and transitive, and a matrix is `==` to
itself exactly when no entry is NaN. -/
theorem C149_float_partial (b : Build) (powi : Flt → Int → Flt) :
    letI := field b powi
    (∀ M N : Mat Flt, M.eq N = N.eq M) ∧
    (∀ M N P : Mat Flt, M.eq N = true → N.eq P = true → M.eq P = true) ∧
    (∀ M : Mat Flt, M.eq M = true ↔ ∀ x ∈ M.entries, x ≠ nan) := by
  let _ := field b powi
  have hs : ∀ M N : Mat Flt, M.eq N = true → N.eq M = true := by
    intro M N
    simp only [Mat.eq_iff]
    rintro ⟨h1, h2, h3⟩
    exact ⟨h1.flip.imp fun a b h => (eq_comm' _ _).trans h, h2.symm, h3.symm⟩
  refine ⟨fun M N => Bool.eq_iff_iff.mpr ⟨hs M N, hs N M⟩, fun M N P => ?_, fun M => ?_⟩
  · simp only [Mat.eq_iff]
    rintro ⟨h1, h2, h3⟩ ⟨h4, h5, h6⟩
    refine ⟨?_, h2.trans h5, h3.trans h6⟩
    rw [List.forall₂_iff_get] at *
    refine ⟨h1.1.trans h4.1, fun i hi hi' => ?_⟩
    exact eq_trans' (h1.2 i hi (h1.1 ▸ hi)) (h4.2 i (h1.1 ▸ hi) hi')
  · simp only [Mat.eq_iff, and_true, List.forall₂_same]
    exact forall₂_congr fun x _ => eq_refl_iff x

/-- C149. Finite matrices that are `==` are also `epsilon_equals`. -/
theorem C149_epsilon (b : Build) (powi : Flt → Int → Flt) (M N : Mat Flt)
    (hv : ∀ x ∈ N.entries, x.Valid) (hf : ∀ x ∈ N.entries, x.value ≠ none) :
    letI := field b powi
    M.eq N = true → M.epsilonEquals N = .ok true := by
  let _ := field b powi
  intro h
  obtain ⟨h1, h2, h3⟩ := (Mat.eq_iff M N).mp h
  rw [C96_run b powi M N hv h2 h3]
  have hsub : ∀ x y : Flt, eq x y = true → y.value ≠ none → ∃ z, sub x y = fin z 0 := by
    intro x y hxy hy
    cases y with
    | nan => exact absurd rfl hy
    | inf t => exact absurd rfl hy
    | fin t m =>
      cases x with
      | nan => cases hxy
      | inf s => cases s <;> cases hxy
      | fin s n =>
        rw [eq_fin_iff] at hxy
        refine ⟨s && !t, ?_⟩
        have e : units s n + units (!t) m = 0 := by
          rw [hxy]; unfold units; cases t <;> simp
        rw [sub, neg, add_fin, e]
        rfl
  have hsq : ∀ z, add zero (mul (fin z 0) (fin z 0)) = zero := by
    intro z; cases z <;> fmt_decide
  have hfold : (List.zipWith sub M.entries N.entries).foldl (fun acc d => add acc (mul d d)) zero = zero := by
    clear h2 h3 h hv
    generalize M.entries = l at h1
    generalize N.entries = l' at h1 hf
    induction h1 with
    | nil => rfl
    | @cons x y l l' hxy _ ih =>
      obtain ⟨z, hz⟩ := hsub x y hxy (hf y List.mem_cons_self)
      rw [List.zipWith_cons_cons, List.foldl_cons, hz, hsq]
      exact ih fun w hw => hf w (List.mem_cons_of_mem _ hw)
  rw [hfold]
  have : epsilonEquals zero zero = true := by fmt_decide
  rw [this]

end Flt
end Verif
