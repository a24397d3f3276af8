import Verif.Props.Ideal
import Verif.Props.Solve
import Verif.Proofs.LinearForms

/-!
# Property C145: Gröbner bases of linear polynomials and reduced row echelon forms

The two main parts of the library agree where both apply: on polynomials of degree at most one.
-/

namespace Verif
open Res MvPolynomial LawfulRField LinAlg LinearForms

/-- In `Lex`, `GrLex` and `GRevLex`, `x_0 > x_1 > …`. -/
theorem OrdKind.varsDescend {k : OrdKind} (hk : k ≠ .revLex) (d : ℕ) : VarsDescend (k.mathlib d) := by
  intro i j hij
  rw [OrdKind.mathlib_lt]
  have e : ∀ (i : Fin d) (x : ℕ), extend (Finsupp.single i 1) x = if x = i.val then 1 else 0 := by
    intro i x
    unfold extend
    split
    · rename_i h
      rw [Finsupp.single_apply]
      refine if_congr ?_ rfl rfl
      rw [Fin.ext_iff, eq_comm]
    · rename_i h
      rw [if_neg]
      have := i.2
      omega
  have ht : ∀ i : Fin d, tot d (extend (Finsupp.single i 1)) = 1 := by
    intro i
    rw [tot_extend]
    simp [Finsupp.single_apply]
  have hlex : LexLt (extend (Finsupp.single j 1)) (extend (Finsupp.single i 1)) := by
    refine ⟨i.val, fun x hx => ?_, ?_⟩
    · rw [e, e, if_neg (by omega), if_neg (by omega)]
    · rw [e, e, if_neg (by omega), if_pos rfl]; omega
  cases k
  · exact hlex
  · exact absurd rfl hk
  · exact Or.inr ⟨by rw [ht, ht], hlex⟩
  · refine Or.inr ⟨by rw [ht, ht], j.val, fun x hx => ?_, ?_⟩
    · rw [e, e, if_neg (by omega), if_neg (by omega)]
    · rw [e, e, if_neg (by omega), if_pos rfl]; omega

section
variable {F : Type} [RField F] {K : Type} [Field K] [LawfulRField F K] [EpsilonEquality F]
  [StabilityCmp F] [LawfulPivot F K]
variable {d : ℕ} {O : MOrder} {m : MonomialOrder (Fin d)}

/-- Set equality from `reduced_unique`. -/
theorem reduced_eq {I : Ideal (MvPolynomial (Fin d) K)} {G H : Set (MvPolynomial (Fin d) K)}
    (hG : IsGroebner m I G) (hH : IsGroebner m I H) (hG0 : 0 ∉ G) (hH0 : 0 ∉ H)
    (hGr : IsInterReduced m G) (hHr : IsInterReduced m H) (h1 : ∀ h ∈ H, m.leadingCoeff h = 1) :
    (fun p => (m.leadingCoeff p)⁻¹ • p) '' G = H := by
  apply Set.Subset.antisymm
  · rintro _ ⟨g, hg, rfl⟩
    obtain ⟨h, hh, he⟩ := hG.reduced_unique hH hG0 hGr hHr hg
    rw [h1 h hh, inv_one, one_smul] at he
    change (m.leadingCoeff g)⁻¹ • g ∈ H
    rw [he]
    exact hh
  · intro h hh
    obtain ⟨g, hg, he⟩ := hH.reduced_unique hG hH0 hHr hGr hh
    rw [h1 h hh, inv_one, one_smul] at he
    exact ⟨g, hg, he.symm⟩

/-- C145. For polynomials of degree at most one in `d` variables, with an order in which
`x_0 > x_1 > …`, let `M` be the matrix of their coefficients, the constant terms in the last column.
If the last column of the reduced row echelon form of `M` has a pivot, the basis is a constant;
otherwise its elements are, up to nonzero factors, the nonzero rows. -/
theorem C145_linear (hO : Implements O m) (hm : VarsDescend m) (ps : List (Poly F))
    (hp : ∀ p ∈ ps, Poly.Clean (Fin d) p ∧ Poly.den (Fin d) p ≠ (0 : MvPolynomial (Fin d) K))
    (hlin : ∀ p ∈ ps, (Poly.den (Fin d) p : MvPolynomial (Fin d) K).totalDegree ≤ 1) (M : Mat F)
    (hM : M.Represents (Matrix.of fun (i : Fin ps.length) (j : Fin (d + 1)) =>
      coeff (Fin.lastCases (motive := fun _ => Fin d →₀ ℕ) 0 (fun i => Finsupp.single i 1) j)
        (Poly.den (Fin d) ps[i] : MvPolynomial (Fin d) K)))
    (hn : ps.length * ps.length < 18446744073709551616) :
    Spec (PolyPanic F) (do let f ← rref M; let G ← Computer.buchbergerAlgorithm O ps; pure (f, G))
      (fun (f, G) => ∃ (B : Matrix (Fin ps.length) (Fin (d + 1)) K) (k : ℕ) (piv : Fin k → Fin (d + 1)),
        f.b.Represents B ∧ ReducedRowEchelon B k piv ∧
        ((∃ r, piv r = Fin.last d) → (fun p => (m.leadingCoeff p)⁻¹ • p) '' dens (Fin d) G = {1}) ∧
        ((∀ r, piv r ≠ Fin.last d) → (fun p => (m.leadingCoeff p)⁻¹ • p) '' dens (Fin d) G =
          {q | ∃ i, B i ≠ 0 ∧ q = ∑ j : Fin d, C (B i j.castSucc) * X j + C (B i (Fin.last d))})) := by
  refine ((C62_rref M _ hM hn).mono polyPanic_allowed fun _ h => h).bind ?_
  rintro f ⟨P, B, k, piv, -, hfB, -, hP, hPA, hB⟩
  refine (algorithm_spec hO ps hp (fun _ => True) trivial fun _ _ => trivial).bind fun G h => ?_
  refine ⟨B, k, piv, hfB, hB, ?_⟩
  obtain ⟨hok, hGr, -, -, hred⟩ := h
  have hG0 : (0 : MvPolynomial (Fin d) K) ∉ dens (Fin d) G := by
    rintro ⟨g, hg, h0⟩
    exact hok.den_ne hg h0.symm
  have hrows : Set.range (fun i : Fin ps.length => row (Matrix.of (fun (i : Fin ps.length)
      (j : Fin (d + 1)) => coeff (col j) (Poly.den (Fin d) ps[i] : MvPolynomial (Fin d) K)) i)) =
      dens (Fin d) ps := by
    have e : ∀ p ∈ ps, row (fun j => coeff (col j) (Poly.den (Fin d) p : MvPolynomial (Fin d) K)) =
        Poly.den (Fin d) p := by
      intro p hpm
      refine row_coeff fun e he => ?_
      have hle : e.degree ≤ 1 := (le_totalDegree he).trans (hlin p hpm)
      by_cases h0 : e = 0
      · exact ⟨Fin.last d, by rw [col_last, h0]⟩
      · obtain ⟨i, hi⟩ := Finsupp.ne_iff.mp h0
        refine ⟨i.castSucc, ?_⟩
        rw [col_castSucc]
        have h1 : Finsupp.single i 1 ≤ e := by
          rw [Finsupp.single_le_iff]
          exact Nat.one_le_iff_ne_zero.mpr hi
        have h2 : e = Finsupp.single i 1 + (e - Finsupp.single i 1) :=
          (add_tsub_cancel_of_le h1).symm
        rw [h2, map_add, Finsupp.degree_single] at hle
        have h3 : (e - Finsupp.single i 1).degree = 0 := by omega
        rw [Finsupp.degree_eq_zero_iff] at h3
        rw [h2, h3, add_zero]
    ext x
    constructor
    · rintro ⟨i, rfl⟩
      exact ⟨ps[i], List.getElem_mem _, (e ps[i] (List.getElem_mem _))⟩
    · rintro ⟨p, hpm, rfl⟩
      obtain ⟨i, hi, rfl⟩ := List.mem_iff_getElem.mp hpm
      exact ⟨⟨i, hi⟩, e _ hpm⟩
  have hspan := span_rows hP hPA hB
  have hspan : Ideal.span (Set.range (pivRow hB)) = Ideal.span (dens (Fin d) ps) := by
    rw [hspan, ← hrows]
    rfl
  constructor
  · rintro ⟨r, hr⟩
    have h1 : pivRow hB r = 1 := by
      obtain ⟨hd, hlc⟩ := pivRow_degree hm hB r
      rw [hr, col_last] at hd
      rw [m.degree_eq_zero_iff.mp hd, hlc, C_1]
    have htop : Ideal.span (dens (Fin d) ps : Set (MvPolynomial (Fin d) K)) = ⊤ := by
      rw [← hspan, Ideal.eq_top_iff_one, ← h1]
      exact Ideal.subset_span ⟨r, rfl⟩
    refine reduced_eq hGr ?_ hG0 (fun h => zero_ne_one (Set.mem_singleton_iff.mp h)) hred ?_ ?_
    · refine ⟨by rw [htop]; exact Set.subset_univ _, fun f _ _ => ⟨1, rfl, one_ne_zero, ?_⟩⟩
      rw [m.degree_one]
      exact zero_le
    · rintro f rfl g rfl hne
      exact absurd rfl hne
    · rintro _ rfl
      exact m.leadingCoeff_one
  · intro hl
    have hH := groebner hm hB hl
    rw [hspan] at hH
    have key := reduced_eq hGr hH hG0 ?_ hred (interReduced hm hB hl) ?_
    · rw [key]
      have hrow : ∀ i, row (B i) = ∑ j : Fin d, C (B i j.castSucc) * X j + C (B i (Fin.last d)) := by
        intro i
        rw [row_apply, Fin.sum_univ_castSucc, col_last]
        congr 1
        refine Finset.sum_congr rfl fun j _ => ?_
        rw [col_castSucc, C_mul_X_eq_monomial]
      ext q
      constructor
      · rintro ⟨r, rfl⟩
        refine ⟨r.castLE hB.le, fun h0 => ?_, hrow _⟩
        have := hB.one r
        rw [h0] at this
        exact zero_ne_one this
      · rintro ⟨i, hi, rfl⟩
        have : ¬ k ≤ i.val := fun hk => hi (funext fun j => hB.zero i hk j)
        exact ⟨⟨i.val, by omega⟩, hrow i⟩
    · rintro ⟨r, hr⟩
      have := (pivRow_degree hm hB r).2
      rw [hr, MonomialOrder.leadingCoeff_zero] at this
      exact zero_ne_one this
    · rintro _ ⟨r, rfl⟩
      exact (pivRow_degree hm hB r).2

end

/-! ### Example: `2 x + y - 3` and `x - y` -/

/-- `2 x + y - 3`. -/
def linA : Poly Rational := [⟨⟨2, 1⟩, [1]⟩, ⟨⟨1, 1⟩, [0, 1]⟩, ⟨⟨-3, 1⟩, []⟩]
/-- `x - y`. -/
def linB : Poly Rational := [⟨⟨1, 1⟩, [1]⟩, ⟨⟨-1, 1⟩, [0, 1]⟩]

theorem toF_one : MDeg.toF (Fin 2) [1] = Finsupp.single 0 1 := by
  ext i
  rw [MDeg.toF_apply, Finsupp.single_apply]
  revert i
  decide

theorem toF_two : MDeg.toF (Fin 2) [0, 1] = Finsupp.single 1 1 := by
  ext i
  rw [MDeg.toF_apply, Finsupp.single_apply]
  revert i
  decide

theorem den_linA : letI := Rational.field .debug
    letI := Rational.lawful
    (Poly.den (Fin 2) linA : MvPolynomial (Fin 2) ℚ) =
      monomial (Finsupp.single 0 1) 2 + (monomial (Finsupp.single 1 1) 1 + monomial 0 (-3)) := by
  let _ := Rational.field .debug
  let _ := Rational.lawful
  unfold linA
  rw [Poly.den_cons, Poly.den_cons, Poly.den_cons, Poly.den_nil, add_zero, Term.den, Term.den, Term.den,
    toF_one, toF_two, show MDeg.toF (Fin 2) [] = 0 from MDeg.toF_zero]
  have e : ∀ x : Int, (val (⟨x, 1⟩ : Rational) : ℚ) = x := fun x => div_one _
  rw [e, e, e]
  norm_num

theorem den_linB : letI := Rational.field .debug
    letI := Rational.lawful
    (Poly.den (Fin 2) linB : MvPolynomial (Fin 2) ℚ) =
      monomial (Finsupp.single 0 1) 1 + monomial (Finsupp.single 1 1) (-1) := by
  let _ := Rational.field .debug
  let _ := Rational.lawful
  unfold linB
  rw [Poly.den_cons, Poly.den_cons, Poly.den_nil, add_zero, Term.den, Term.den, toF_one, toF_two]
  have e : ∀ x : Int, (val (⟨x, 1⟩ : Rational) : ℚ) = x := fun x => div_one _
  rw [e, e]
  norm_num

/-- The hypotheses of `C145_linear` about the polynomials. -/
example : letI := Rational.field .debug
    letI := Rational.lawful
    (∀ p ∈ [linA, linB], Poly.Clean (Fin 2) p ∧ Poly.den (Fin 2) p ≠ (0 : MvPolynomial (Fin 2) ℚ)) ∧
    ∀ p ∈ [linA, linB], (Poly.den (Fin 2) p : MvPolynomial (Fin 2) ℚ).totalDegree ≤ 1 := by
  let _ := Rational.field .debug
  let _ := Rational.lawful
  refine ⟨sampleGens (by decide), fun p hp => ?_⟩
  have h : ∀ (i : Fin 2) (c : ℚ), (monomial (Finsupp.single i 1) c).totalDegree ≤ 1 := fun i c =>
    (totalDegree_monomial_le _ _).trans (by simp)
  rcases List.mem_pair.mp hp with rfl | rfl
  · rw [den_linA]
    refine (totalDegree_add _ _).trans (max_le (h _ _) ((totalDegree_add _ _).trans (max_le (h _ _) ?_)))
    exact (totalDegree_monomial_le _ _).trans (by simp)
  · rw [den_linB]
    exact (totalDegree_add _ _).trans (max_le (h _ _) (h _ _))

/-- The hypothesis of `C145_linear` about the matrix. -/
example : letI := Rational.field .debug
    letI := Rational.lawful
    (ratMat 2 3 [2, 1, -3, 1, -1, 0]).Represents (Matrix.of fun (i : Fin [linA, linB].length) (j : Fin 3) =>
      coeff (Fin.lastCases (motive := fun _ => Fin 2 →₀ ℕ) 0 (fun i => Finsupp.single i 1) j)
        (Poly.den (Fin 2) [linA, linB][i] : MvPolynomial (Fin 2) ℚ)) := by
  let _ := Rational.field .debug
  let _ := Rational.lawful
  have h := ratMat_represents 2 3 [2, 1, -3, 1, -1, 0] rfl (by decide) (by decide) (by decide)
  have n01 : Finsupp.single (0 : Fin 2) 1 ≠ Finsupp.single 1 1 := by
    intro h; simpa using DFunLike.congr_fun h 0
  have n0 : ∀ i : Fin 2, (0 : Fin 2 →₀ ℕ) ≠ Finsupp.single i 1 := fun i => (by simp : Finsupp.single i 1 ≠ 0).symm
  have hA : ∀ j : Fin 3, coeff (Fin.lastCases (motive := fun _ => Fin 2 →₀ ℕ) 0
      (fun i => Finsupp.single i 1) j) (Poly.den (Fin 2) linA : MvPolynomial (Fin 2) ℚ) =
      (([2, 1, -3, 1, -1, 0].getD (0 * 3 + j) 0 : Int) : ℚ) := by
    intro j
    rw [den_linA]
    fin_cases j
    · change coeff (Finsupp.single 0 1) _ = _
      simp [coeff_monomial, n01.symm, n0]
    · change coeff (Finsupp.single 1 1) _ = _
      simp [coeff_monomial, n01, n0]
    · change coeff 0 _ = _
      simp [coeff_monomial]
  have hB : ∀ j : Fin 3, coeff (Fin.lastCases (motive := fun _ => Fin 2 →₀ ℕ) 0
      (fun i => Finsupp.single i 1) j) (Poly.den (Fin 2) linB : MvPolynomial (Fin 2) ℚ) =
      (([2, 1, -3, 1, -1, 0].getD (1 * 3 + j) 0 : Int) : ℚ) := by
    intro j
    rw [den_linB]
    fin_cases j
    · change coeff (Finsupp.single 0 1) _ = _
      simp [coeff_monomial, n01.symm]
    · change coeff (Finsupp.single 1 1) _ = _
      simp [coeff_monomial, n01]
    · change coeff 0 _ = _
      simp [coeff_monomial]
  refine (iff_of_eq (congrArg _ ?_)).mpr h
  ext i j
  rw [Matrix.of_apply]
  obtain ⟨i, hi⟩ := i
  match i, hi with
  | 0, _ => exact hA j
  | 1, _ => exact hB j

/-- The reduced row echelon form and the basis: `x - 1` and `y - 1`. -/
example : letI := Rational.field .debug
    letI := Rational.stability .debug
    (do let f ← rref (ratMat 2 3 [2, 1, -3, 1, -1, 0]); pure (f.b.entries.map Rational.val)) =
      .ok [1, 0, -1, 0, 1, -1] ∧
    Computer.buchbergerAlgorithm (OrdKind.lex.order .debug) [linA, linB] =
      .ok [[⟨⟨1, 1⟩, [0, 1]⟩, ⟨⟨-1, 1⟩, []⟩], [⟨⟨1, 1⟩, [1]⟩, ⟨⟨-1, 1⟩, []⟩]] := by
  let _ := Rational.field .debug
  exact ⟨by decide +kernel, (Computer.buchbergerAlgorithmN_approx 30 _).eq (by decide +kernel) (by simp)⟩

end Verif
