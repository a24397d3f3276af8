import Verif.Proofs.Insert
import Verif.Proofs.Run

/-!
# Property theorems: unused variables and larger fields (C165)

The results do not depend on variables that do not occur, nor on the field the coefficients are seen in.
Each statement is an equality of outcomes, so it covers panics and runs that do not end.
-/

namespace Verif
open Res Computer LinAlg

/-! ### Unused variables -/

namespace MDeg

/-- What `ins` does to the exponents. -/
theorem C165_ins (k : ℕ) (m : MDeg) (i : ℕ) :
    (ins k m).getD i 0 = if i < k then m.getD i 0 else if i = k then 0 else m.getD (i - 1) 0 := by
  induction k generalizing m i with
  | zero => cases m <;> rcases i with _ | _ | i <;> simp
  | succ k ih =>
    cases m with
    | nil => simp
    | cons a as =>
      cases i with
      | zero => simp
      | succ i =>
        rw [ins_succ_cons, List.getD_cons_succ, ih, List.getD_cons_succ, Nat.add_sub_cancel]
        rcases lt_trichotomy i k with h | h | h
        · rw [if_pos h, if_pos (by omega)]
        · rw [if_neg (by omega), if_pos h, if_neg (by omega), if_pos (by omega)]
        · obtain ⟨j, rfl⟩ : ∃ j, i = j + 1 := ⟨i - 1, by omega⟩
          rw [if_neg (by omega), if_neg (by omega), if_neg (by omega), if_neg (by omega), List.getD_cons_succ,
            Nat.add_sub_cancel]

/-- Several insertions, one after the other. -/
def insAll (ks : List ℕ) (m : MDeg) : MDeg := ks.foldl (fun m k => ins k m) m

theorem emb_insAll (b : Build) (ks : List ℕ) : MDegEmb b (insAll ks) := by
  induction ks with
  | nil => exact
    ⟨rfl, fun m n => Iff.rfl, fun m n => by change _ = id <$> _; rw [id_map]; rfl,
      fun m n => by change _ = Option.map id _; rw [Option.map_id]; rfl, fun m n => rfl, fun m n => rfl⟩
  | cons k ks ih =>
    have h := emb_ins b k
    refine ⟨?_, ?_, ?_, ?_, ?_, ?_⟩
    · change insAll ks (ins k _) = _
      rw [h.zero, ih.zero]
    · exact fun m n => (ih.inj _ _).trans (h.inj _ _)
    · intro m n
      change MDeg.add b (insAll ks (ins k m)) (insAll ks (ins k n)) = _
      rw [ih.add, h.add]
      cases MDeg.add b m n <;> rfl
    · intro m n
      change checkedSub (insAll ks (ins k m)) (insAll ks (ins k n)) = _
      rw [ih.sub, h.sub]
      cases checkedSub m n <;> rfl
    · exact fun m n => (ih.succ _ _).trans (h.succ _ _)
    · intro m n
      change lcmMDeg (insAll ks (ins k m)) (insAll ks (ins k n)) = _
      rw [ih.lcm, h.lcm]
      rfl

end MDeg

open MDeg

theorem ordEmb_insAll (κ : OrdKind) (b : Build) (ks : List ℕ) : OrdEmb (κ.order b) (κ.order b) (insAll ks) := by
  induction ks with
  | nil => exact fun m n => rfl
  | cons k ks ih => exact fun m n => (ih _ _).trans (ordEmb_ins κ b k m n)

/-- The polynomial after the variables at the positions `ks` have been inserted one after the other. -/
def Poly.insAll {F : Type} (ks : List ℕ) (p : Poly F) : Poly F := p.map fun t => ⟨t.coef, MDeg.insAll ks t.mdeg⟩

theorem CoefEmb.refl (F : Type) [RField F] : CoefEmb (id : F → F) := by
  refine ⟨rfl, rfl, rfl, fun a b => rfl, ?_, ?_, ?_, ?_, ?_, ?_⟩ <;> intros <;> rw [id_map] <;> rfl

section Variables
variable {F : Type} [RField F] (ks : List ℕ)

/-- C165 for the operators: sums, differences, products of polynomials and quotients by scalars after the
insertion are the insertions of those before. -/
theorem C165_arithmetic (p q : Poly F) (a : F) :
    Poly.add (p.insAll ks) (q.insAll ks) = Poly.insAll ks <$> Poly.add p q ∧
    Poly.sub (p.insAll ks) (q.insAll ks) = Poly.insAll ks <$> Poly.sub p q ∧
    Poly.mul (p.insAll ks) (q.insAll ks) = Poly.insAll ks <$> Poly.mul p q ∧
    Poly.divCoef (p.insAll ks) a = Poly.insAll ks <$> Poly.divCoef p a :=
  have h := CoefEmb.refl F
  have hm := emb_insAll (RField.build F) ks
  ⟨Poly.add_emb h hm p q, Poly.sub_emb h hm p q, Poly.mul_emb h hm p q, Poly.divCoef_emb h hm p a⟩

/-- C165 for the routines of `Computer`, for all four orders. -/
theorem C165_routines (κ : OrdKind) (f g : Poly F) (gens : List (Poly F)) :
    let O := κ.order (RField.build F)
    leadingTerm O (f.insAll ks) = Option.map (fun t => ⟨t.coef, MDeg.insAll ks t.mdeg⟩) <$> leadingTerm O f ∧
    sortTerms O (f.insAll ks) = Poly.insAll ks <$> sortTerms O f ∧
    divide O (f.insAll ks) (gens.map (Poly.insAll ks)) =
      Prod.map (Poly.insAll ks) (List.map (Poly.insAll ks)) <$> divide O f gens ∧
    tryReduce O (f.insAll ks) (g.insAll ks) = Option.map (Poly.insAll ks) <$> tryReduce O f g ∧
    buchbergerCriterion O (gens.map (Poly.insAll ks)) = buchbergerCriterion O gens ∧
    buchbergerAlgorithm O (gens.map (Poly.insAll ks)) = List.map (Poly.insAll ks) <$> buchbergerAlgorithm O gens :=
  have h := CoefEmb.refl F
  have hm := emb_insAll (RField.build F) ks
  have ho := ordEmb_insAll κ (RField.build F) ks
  ⟨leadingTerm_emb (φ := id) ho f, sortTerms_emb (φ := id) ho f, divide_emb ho h hm f gens, tryReduce_emb ho h hm f g,
    buchbergerCriterion_emb ho h hm gens, buchbergerAlgorithm_emb ho h hm gens⟩

end Variables

/-- Inserting variables before, between and behind `x` and `y`: `x y^2 + 3` becomes `x_1 x_3^2 + 3`. -/
example : Poly.insAll [0, 2, 4] [(⟨⟨1, 1⟩, [1, 2]⟩ : Term Rational), ⟨⟨3, 1⟩, []⟩] =
    [⟨⟨1, 1⟩, [0, 1, 0, 2]⟩, ⟨⟨3, 1⟩, []⟩] := by decide

/-! ### Larger fields -/

section Extension
variable {K L : Type} [Field K] [DecidableEq K] [Field L] [DecidableEq L] (φ : K →+* L) (b : Build)

theorem coefEmb_hom :
    letI := exactField b K
    letI := exactField b L
    CoefEmb (φ : K → L) := by
  let _ := exactField b K
  let _ := exactField b L
  refine ⟨rfl, map_zero φ, map_one φ, ?_, ?_, ?_, ?_, ?_, ?_, ?_⟩
  · intro x y
    exact decide_eq_decide.mpr φ.injective.eq_iff
  · exact fun x y => congrArg Res.ok (map_add φ x y).symm
  · exact fun x y => congrArg Res.ok (map_sub φ x y).symm
  · exact fun x => congrArg Res.ok (map_neg φ x).symm
  · exact fun x y => congrArg Res.ok (map_mul φ x y).symm
  · intro x y
    change (if φ y = 0 then _ else Res.ok (φ x / φ y)) = φ <$> (if y = 0 then _ else Res.ok (x / y))
    by_cases hy : y = 0
    · rw [if_pos hy, if_pos (by rw [hy, map_zero])]
      rfl
    · rw [if_neg hy, if_neg (by rwa [map_eq_zero]), map_ok, map_div₀]
  · intro x
    change (if φ x = 0 then _ else Res.ok (φ x)⁻¹) = φ <$> (if x = 0 then _ else Res.ok x⁻¹)
    by_cases hx : x = 0
    · rw [if_pos hx, if_pos (by rw [hx, map_zero])]
      rfl
    · rw [if_neg hx, if_neg (by rwa [map_eq_zero]), map_ok, map_inv₀]

/-- The polynomial with coefficients seen in the larger field. -/
def Poly.extend (p : Poly K) : Poly L := p.map fun t => ⟨φ t.coef, t.mdeg⟩

/-- The matrix with entries seen in the larger field. -/
def Mat.extend (M : Mat K) : Mat L := ⟨M.entries.map φ, M.rows, M.cols⟩

/-- C165 for polynomials: extending the field of coefficients does not change what the routines return, with
any order. -/
theorem C165_extend (O : MOrder) (f g : Poly K) (gens : List (Poly K)) :
    letI := exactField b K
    letI := exactField b L
    Poly.mul (f.extend φ) (g.extend φ) = Poly.extend φ <$> Poly.mul f g ∧
    divide O (f.extend φ) (gens.map (Poly.extend φ)) =
      Prod.map (Poly.extend φ) (List.map (Poly.extend φ)) <$> divide O f gens ∧
    tryReduce O (f.extend φ) (g.extend φ) = Option.map (Poly.extend φ) <$> tryReduce O f g ∧
    buchbergerCriterion O (gens.map (Poly.extend φ)) = buchbergerCriterion O gens ∧
    buchbergerAlgorithm O (gens.map (Poly.extend φ)) = List.map (Poly.extend φ) <$> buchbergerAlgorithm O gens := by
  let _ := exactField b K
  let _ := exactField b L
  have h := coefEmb_hom φ b
  have hm := emb_insAll b []
  have ho : OrdEmb O O (insAll []) := fun m n => rfl
  exact ⟨Poly.mul_emb h hm f g, divide_emb ho h hm f gens, tryReduce_emb ho h hm f g,
    buchbergerCriterion_emb ho h hm gens, buchbergerAlgorithm_emb ho h hm gens⟩

/-- C165 for elimination: if the tests for zero and the choice of the pivot agree, then so do all results. -/
theorem C165_elimination [EpsilonEquality K] [EpsilonEquality L] [StabilityCmp K] [StabilityCmp L]
    (heps : ∀ x, EpsilonEquality.epsilonEquals (φ x) (0 : L) = EpsilonEquality.epsilonEquals x (0 : K))
    (hst : ∀ x y, StabilityCmp.stabilityCmp (φ x) (φ y) = StabilityCmp.stabilityCmp x y) (M : Mat K) :
    letI := exactField b K
    letI := exactField b L
    (M.extend φ).lu = (fun d => ⟨d.p.extend φ, d.l.extend φ, d.u.extend φ⟩) <$> M.lu ∧
    (M.extend φ).rowEchelon =
      (fun f => ⟨f.p.extend φ, f.b.extend φ, f.original.extend φ⟩) <$> M.rowEchelon ∧
    ∀ f : Form K, let f' : Form L := ⟨f.p.extend φ, f.b.extend φ, f.original.extend φ⟩
      f'.toRref = (fun f => ⟨f.p.extend φ, f.b.extend φ, f.original.extend φ⟩) <$> f.toRref ∧
      f'.rank = f.rank ∧
      f'.computeKernel = List.map (Mat.extend φ) <$> f.computeKernel ∧
      ∀ order, f'.computeRange order = List.map (Mat.extend φ) <$> f.computeRange order := by
  let _ := exactField b K
  let _ := exactField b L
  have h := coefEmb_hom φ b
  exact ⟨Mat.lu_emb h heps hst M, Mat.rowEchelon_emb h heps hst M, fun f => ⟨Form.toRref_emb h heps f,
    Form.rank_emb h heps f, Form.computeKernel_emb h heps f, fun order => Form.computeRange_emb h heps order f⟩⟩

/-- C165 for cones. -/
theorem C165_cone [EpsilonEquality K] [EpsilonEquality L] [StabilityCmp K] [StabilityCmp L] [FieldOrd K]
    [FieldOrd L]
    (heps : ∀ x, EpsilonEquality.epsilonEquals (φ x) (0 : L) = EpsilonEquality.epsilonEquals x (0 : K))
    (hst : ∀ x y, StabilityCmp.stabilityCmp (φ x) (φ y) = StabilityCmp.stabilityCmp x y)
    (hs : ∀ x, FieldOrd.partialCmp (φ x) (0 : L) = FieldOrd.partialCmp x (0 : K)) (gens : List (Mat K)) :
    letI := exactField b K
    letI := exactField b L
    Cone.new (gens.map (Mat.extend φ)) =
      (fun c => ⟨c.generators.map (Mat.extend φ),
        c.facets.map fun f => ⟨f.normal.extend φ, f.generators.map (Mat.extend φ)⟩,
        c.orthCompBasis.map (Mat.extend φ), c.ambientDim, c.dim⟩) <$> Cone.new gens := by
  let _ := exactField b K
  let _ := exactField b L
  exact Cone.new_emb (coefEmb_hom φ b) heps hst hs gens

end Extension

/-- The inclusion of `ℚ` in any ordered field meets the hypotheses, with equality for the test for zero, the
order of the absolute values for the choice of the pivot and the order for the signs. -/
example (L : Type) [Field L] [LinearOrder L] [IsStrictOrderedRing L] (φ : ℚ →+* L) :
    (∀ x, decide (φ x = 0) = decide (x = 0)) ∧ (∀ x y, compare |φ x| |φ y| = compare |x| |y|) ∧
      ∀ x, compare (φ x) 0 = compare x 0 := by
  have hφ : ∀ x, φ x = (x : L) := fun x => eq_ratCast φ x
  refine ⟨fun x => by simp, fun x y => ?_, fun x => ?_⟩
  · rw [hφ, hφ]
    rcases lt_trichotomy |x| |y| with h | h | h
    · rw [compare_lt_iff_lt.mpr h, compare_lt_iff_lt]
      exact_mod_cast h
    · rw [compare_eq_iff_eq.mpr h, compare_eq_iff_eq]
      exact_mod_cast h
    · rw [compare_gt_iff_gt.mpr h, compare_gt_iff_gt]
      exact_mod_cast h
  · rw [hφ]
    rcases lt_trichotomy x 0 with h | h | h
    · rw [compare_lt_iff_lt.mpr h, compare_lt_iff_lt]
      exact_mod_cast h
    · rw [compare_eq_iff_eq.mpr h, compare_eq_iff_eq]
      exact_mod_cast h
    · rw [compare_gt_iff_gt.mpr h, compare_gt_iff_gt]
      exact_mod_cast h

/-- A run with and without an unused variable in front: `x y - 1`, `y^2 - 1`. -/
example :
    letI := Rational.field .debug
    let gens : List (Poly Rational) := [[⟨⟨1, 1⟩, [1, 1]⟩, ⟨⟨-1, 1⟩, []⟩], [⟨⟨1, 1⟩, [0, 2]⟩, ⟨⟨-1, 1⟩, []⟩]]
    ∃ basis, buchbergerAlgorithm (OrdKind.gRevLex.order .debug) gens = .ok basis ∧
      buchbergerAlgorithm (OrdKind.gRevLex.order .debug) (gens.map (Poly.insAll [0])) = .ok (basis.map (Poly.insAll [0])) := by
  let _ := Rational.field .debug
  intro gens
  have h : ∃ basis, buchbergerAlgorithm (OrdKind.gRevLex.order .debug) gens = .ok basis := by
    exact ⟨[[⟨⟨1, 1⟩, [0, 2]⟩, ⟨⟨-1, 1⟩, []⟩], [⟨⟨1, 1⟩, [1]⟩, ⟨⟨-1, 1⟩, [0, 1]⟩]],
      (Computer.buchbergerAlgorithmN_approx 30 _).eq (by decide +kernel) (by simp)⟩
  obtain ⟨basis, h⟩ := h
  refine ⟨basis, h, ?_⟩
  exact (C165_routines [0] .gRevLex ([] : Poly Rational) [] gens).2.2.2.2.2.trans
    (congrArg (fun x => List.map (Poly.insAll [0]) <$> x) h)

end Verif
