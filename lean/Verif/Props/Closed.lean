import Verif.Proofs.Closed
import Verif.Proofs.Run
import Mathlib.Algebra.Field.Subfield.Basic

/-!
# Property C164: coefficients stay in rings and fields that contain those of the input
-/

namespace Verif
open Res LinAlg Computer

section Lawful
variable {F K : Type} [RField F] [Field K] [LawfulRField F K]
open LawfulRField

theorem beq_zero_false_of_val {a : F} (h : val a ≠ 0) : RField.beq a (RField.zero : F) = false := by
  by_contra hh
  exact h ((val_eq_of_beq a _ (by simpa using hh)).trans val_zero)

theorem val_ne_zero_of_beq {a : F} (hw : wf a) (h : RField.beq a (RField.zero : F) = false) :
    val a ≠ 0 := fun h0 => by
  rw [beq_zero a hw h0] at h
  cases h

theorem closedRing_of_subring (S : Subring K) : ClosedRing fun a : F => wf a ∧ val a ∈ S where
  zero := ⟨wf_zero, by rw [val_zero]; exact S.zero_mem⟩
  one := ⟨wf_one, by rw [val_one]; exact S.one_mem⟩
  add a b ha hb := fun c hc => by
    have := (add_spec a b ha.1 hb.1).of_ok hc
    exact ⟨this.1, by rw [this.2]; exact S.add_mem ha.2 hb.2⟩
  sub a b ha hb := fun c hc => by
    have := (sub_spec a b ha.1 hb.1).of_ok hc
    exact ⟨this.1, by rw [this.2]; exact S.sub_mem ha.2 hb.2⟩
  neg a ha := fun c hc => by
    have := (neg_spec a ha.1).of_ok hc
    exact ⟨this.1, by rw [this.2]; exact S.neg_mem ha.2⟩
  mul a b ha hb := fun c hc => by
    have := (mul_spec a b ha.1 hb.1).of_ok hc
    exact ⟨this.1, by rw [this.2]; exact S.mul_mem ha.2 hb.2⟩

theorem closedField_of_subfield (S : Subfield K) : ClosedField fun a : F => wf a ∧ val a ∈ S where
  toClosedRing := closedRing_of_subring S.toSubring
  div a b ha hb h0 := fun c hc => by
    have := (div_spec a b ha.1 hb.1 (val_ne_zero_of_beq hb.1 h0)).of_ok hc
    exact ⟨this.1, by rw [this.2]; exact S.div_mem ha.2 hb.2⟩
  inv a ha h0 := fun c hc => by
    have := (inv_spec a ha.1 (val_ne_zero_of_beq ha.1 h0)).of_ok hc
    exact ⟨this.1, by rw [this.2]; exact S.inv_mem ha.2⟩

/-- C164 for division: if the coefficients lie in a ring `S` in which the leading coefficients of the
divisors are invertible, then remainder and quotients have coefficients in `S`. -/
theorem C164_divide (S : Subring K) (O : MOrder) (f : Poly F) (divs : List (Poly F))
    (hf : ∀ t ∈ f, wf t.coef ∧ val t.coef ∈ S) (hg : ∀ g ∈ divs, ∀ t ∈ g, wf t.coef ∧ val t.coef ∈ S)
    (hl : ∀ g ∈ divs, ∀ t, leadingTerm O g = .ok (some t) → (val t.coef)⁻¹ ∈ S)
    {r : Poly F} {qs : List (Poly F)} (h : divide O f divs = .ok (r, qs)) :
    (∀ t ∈ r, val t.coef ∈ S) ∧ ∀ q ∈ qs, ∀ t ∈ q, val t.coef ∈ S := by
  have hd : DivBy (fun a : F => wf a ∧ val a ∈ S) fun a => wf a ∧ (val a)⁻¹ ∈ S := by
    intro a b ha hb h0 c hc
    have := (div_spec a b ha.1 hb.1 (val_ne_zero_of_beq hb.1 h0)).of_ok hc
    exact ⟨this.1, by rw [this.2, div_eq_mul_inv]; exact S.mul_mem ha.2 hb.2⟩
  obtain ⟨h1, h2, -⟩ := over_divide (closedRing_of_subring S) hd hf (fun g hgm =>
    ⟨hg g hgm, fun t ht => ⟨(hg g hgm t (leadingTerm_holds_mem _ ht t rfl)).1, hl g hgm t ht⟩⟩) _ h
  exact ⟨fun t ht => (h1 t ht).2, fun q hq t ht => (h2 q hq t ht).2⟩

/-- C164 for Gröbner bases: `buchberger_algorithm` stays in the field that contains the coefficients. -/
theorem C164_groebner (S : Subfield K) (O : MOrder) (gens : List (Poly F))
    (hg : ∀ g ∈ gens, ∀ t ∈ g, wf t.coef ∧ val t.coef ∈ S) {basis : List (Poly F)}
    (h : buchbergerAlgorithm O gens = .ok basis) : ∀ g ∈ basis, ∀ t ∈ g, val t.coef ∈ S :=
  fun g hgm t ht => (over_buchbergerAlgorithm (closedField_of_subfield S) hg _ h g hgm t ht).2

variable [EpsilonEquality F] [StabilityCmp F] [LawfulPivot F K]

theorem eps_beq (a : F) (hw : wf a) (h : EpsilonEquality.epsilonEquals a (RField.zero : F) = .ok false) :
    RField.beq a (RField.zero : F) = false :=
  beq_zero_false_of_val fun h0 => by
    have := ((LawfulPivot.eps_zero a hw).of_ok h).mpr h0
    cases this

/-- C164 for elimination: the factors of `lu`, the echelon forms with their transformation matrices and
the basis of the kernel have entries in the field that contains those of the matrix. -/
theorem C164_elimination (S : Subfield K) (M : Mat F) (hM : ∀ x ∈ M.entries, wf x ∧ val x ∈ S) :
    (∀ d, M.lu = .ok d → (∀ x ∈ d.p.entries, val x ∈ S) ∧ (∀ x ∈ d.l.entries, val x ∈ S) ∧
      ∀ x ∈ d.u.entries, val x ∈ S) ∧
    (∀ f, M.rowEchelon = .ok f → ((∀ x ∈ f.p.entries, val x ∈ S) ∧ ∀ x ∈ f.b.entries, val x ∈ S) ∧
      ∀ f', f.toRref = .ok f' → ((∀ x ∈ f'.p.entries, val x ∈ S) ∧ ∀ x ∈ f'.b.entries, val x ∈ S) ∧
        ∀ ker, f'.computeKernel = .ok ker → ∀ v ∈ ker, ∀ x ∈ v.entries, val x ∈ S) := by
  have c := closedField_of_subfield (F := F) S
  have heps := fun (a : F) (ha : wf a ∧ val a ∈ S) => eps_beq a ha.1
  refine ⟨fun d hd => ?_, fun f hf => ?_⟩
  · obtain ⟨h1, h2, h3⟩ := over_lu heps c hM d hd
    exact ⟨fun x hx => (h1 x hx).2, fun x hx => (h2 x hx).2, fun x hx => (h3 x hx).2⟩
  · have h1 := over_rowEchelon heps c hM f hf
    refine ⟨⟨fun x hx => (h1.1 x hx).2, fun x hx => (h1.2 x hx).2⟩, fun f' hf' => ?_⟩
    have h2 := over_toRref c.toClosedRing h1 f' hf'
    refine ⟨⟨fun x hx => (h2.1 x hx).2, fun x hx => (h2.2 x hx).2⟩, fun ker hker v hv x hx => ?_⟩
    exact (over_computeKernel c.toClosedRing h2.2 ker hker v hv x hx).2

/-- C164 for cones: the normals of the facets and the basis of the orthogonal complement have entries in
the field that contains those of the generators. -/
theorem C164_cone [FieldOrd F] (S : Subfield K) (gens : List (Mat F))
    (hg : ∀ v ∈ gens, ∀ x ∈ v.entries, wf x ∧ val x ∈ S) {c : Cone F} (h : Cone.new gens = .ok c) :
    (∀ f ∈ c.facets, ∀ x ∈ f.normal.entries, val x ∈ S) ∧
      ∀ v ∈ c.orthCompBasis, ∀ x ∈ v.entries, val x ∈ S := by
  have := over_coneNew (fun (a : F) (ha : wf a ∧ val a ∈ S) => eps_beq a ha.1)
    (closedField_of_subfield S) hg c h
  exact ⟨fun f hf x hx => (this.normal f hf x hx).2, fun v hv x hx => (this.orthComp v hv x hx).2⟩

end Lawful

/-- Polynomials with rational coefficients over any exact field: `x^2 - 2` and `x^3 - 2 x` meet the
hypotheses with the prime field for `S`. -/
example (K : Type) [Field K] [DecidableEq K] :
    letI := exactField .debug K
    letI := exactLawful K
    let gens : List (Poly K) := [[⟨1, [2]⟩, ⟨-2, []⟩], [⟨1, [3]⟩, ⟨-2, [1]⟩]]
    ∀ g ∈ gens, ∀ t ∈ g, LawfulRField.wf t.coef ∧ LawfulRField.val t.coef ∈ (⊥ : Subfield K) := by
  have h2 : (-2 : K) ∈ (⊥ : Subfield K) := neg_mem (ofNat_mem _ 2)
  have h1 : (1 : K) ∈ (⊥ : Subfield K) := one_mem _
  intro gens g hg t ht
  refine ⟨trivial, ?_⟩
  simp only [gens, List.mem_cons, List.not_mem_nil, or_false] at hg
  rcases hg with rfl | rfl <;> simp only [List.mem_cons, List.not_mem_nil, or_false] at ht <;>
    rcases ht with rfl | rfl
  exacts [h1, h2, h1, h2]

/-! ### Integers -/

namespace Rational

theorem new_denom (b : Build) (n d : ℤ) (hd : d = 1 ∨ d = -1) :
    Holds (fun z => z.denom = 1) (new b n d) := by
  have hg : ∀ g, Integer.gcd b n d = .ok g → g = 1 := by
    intro g hg
    unfold Integer.gcd at hg
    obtain ⟨a, ha, h2⟩ := bind_eq_ok.mp hg
    have : a = d := by
      rcases hd with rfl | rfl
      · change Integer.gcdLoop 2 n 1 = _ at ha
        unfold Integer.gcdLoop at ha
        rw [if_neg (by decide)] at ha
        obtain ⟨r, hr, h3⟩ := bind_eq_ok.mp ha
        unfold Integer.rem at hr
        rw [if_neg (by decide), if_neg (by omega)] at hr
        cases hr
        rw [Int.tmod_one] at h3
        exact (Res.ok.inj h3).symm
      · change Integer.gcdLoop 2 n (-1) = _ at ha
        unfold Integer.gcdLoop at ha
        rw [if_neg (by decide)] at ha
        obtain ⟨r, hr, h3⟩ := bind_eq_ok.mp ha
        unfold Integer.rem at hr
        rw [if_neg (by decide)] at hr
        split at hr
        · cases hr
        cases hr
        rw [Int.tmod_neg, Int.tmod_one] at h3
        exact (Res.ok.inj h3).symm
    subst this
    rcases hd with rfl | rfl
    · exact (Res.ok.inj h2).symm
    · exact (Res.ok.inj h2).symm
  unfold new
  split
  · exact Holds.panic
  · refine Holds.bind_eq fun g hgg => ?_
    rw [hg g hgg]
    refine Holds.bind' fun sn => Holds.bind' fun n' => Holds.bind (P := fun a => a = 1) ?_ fun a ha => ?_
    · rcases hd with rfl | rfl <;> exact Holds.ok rfl
    · subst ha
      exact Holds.ok rfl

theorem closedRing_int (b : Build) :
    letI := field b
    ClosedRing fun a : Rational => a.denom = 1 := by
  let _ := field b
  have h1 : Integer.mul b 1 1 = .ok 1 := by cases b <;> rfl
  refine ⟨rfl, rfl, ?_, ?_, ?_, ?_⟩
  · intro x y hx hy
    refine Holds.bind' fun p => Holds.bind' fun q => Holds.bind' fun n => ?_
    split
    · exact Holds.ok rfl
    · rw [hx, hy, h1]
      exact Holds.ok rfl
  · intro x y hx hy
    refine Holds.bind' fun p => Holds.bind' fun q => Holds.bind' fun n => ?_
    split
    · exact Holds.ok rfl
    · rw [hx, hy, h1]
      exact Holds.ok rfl
  · intro x hx
    exact Holds.bind' fun n => Holds.ok hx
  · intro x y hx hy
    refine Holds.bind' fun n => ?_
    rw [hx, hy, h1]
    exact new_denom b n 1 (.inl rfl)

/-- C164 for integers: with and without overflow checks, sums, differences, negatives and products of
polynomials with integer coefficients have integer coefficients. -/
theorem C164_ring (b : Build) (p q : Poly Rational) (hp : ∀ t ∈ p, t.coef.denom = 1)
    (hq : ∀ t ∈ q, t.coef.denom = 1) :
    letI := field b
    (∀ s, Poly.add p q = .ok s → ∀ t ∈ s, t.coef.denom = 1) ∧
    (∀ s, Poly.sub p q = .ok s → ∀ t ∈ s, t.coef.denom = 1) ∧
    (∀ s, Poly.neg p = .ok s → ∀ t ∈ s, t.coef.denom = 1) ∧
    (∀ s, Poly.mul p q = .ok s → ∀ t ∈ s, t.coef.denom = 1) := by
  let _ := field b
  have c := closedRing_int b
  exact ⟨Poly.over_add c hp hq, Poly.over_sub c hp hq, Poly.over_neg c hp, Poly.over_mul c hp hq⟩

/-- C164 for division of polynomials with integer coefficients by ones whose leading coefficients are
`1` or `-1`, with and without overflow checks: remainder and quotients have integer coefficients. -/
theorem C164_integers (b : Build) (O : MOrder) (f : Poly Rational) (divs : List (Poly Rational))
    (hf : ∀ t ∈ f, t.coef.denom = 1) (hg : ∀ g ∈ divs, ∀ t ∈ g, t.coef.denom = 1)
    (hl : ∀ g ∈ divs, ∀ t, leadingTerm O g = .ok (some t) → t.coef.numer = 1 ∨ t.coef.numer = -1)
    {r : Poly Rational} {qs : List (Poly Rational)} :
    letI := field b
    divide O f divs = .ok (r, qs) →
    (∀ t ∈ r, t.coef.denom = 1) ∧ ∀ q ∈ qs, ∀ t ∈ q, t.coef.denom = 1 := by
  let _ := field b
  intro h
  have hd : DivBy (fun a : Rational => a.denom = 1) fun a => a.numer = 1 ∨ a.numer = -1 := by
    intro x y hx hy _
    refine Holds.bind' fun n => ?_
    rw [hx]
    rcases hy with hy | hy <;> rw [hy]
    · have h1 : Integer.mul b 1 1 = .ok 1 := by cases b <;> rfl
      rw [h1]; exact new_denom b n 1 (.inl rfl)
    · have h1 : Integer.mul b 1 (-1) = .ok (-1) := by cases b <;> rfl
      rw [h1]; exact new_denom b n (-1) (.inr rfl)
  obtain ⟨h1, h2, -⟩ := over_divide (closedRing_int b) hd hf (fun g hgm => ⟨hg g hgm, hl g hgm⟩) _ h
  exact ⟨h1, h2⟩

/-- C164 for matrices with integer entries, with and without overflow checks: sums, products, multiples
by integers and inner products are integers. -/
theorem C164_matrices (b : Build) (M N : Mat Rational) (s : Rational) (hM : ∀ x ∈ M.entries, x.denom = 1)
    (hN : ∀ x ∈ N.entries, x.denom = 1) (hs : s.denom = 1) :
    letI := field b
    (∀ L, M.add N = .ok L → ∀ x ∈ L.entries, x.denom = 1) ∧
    (∀ L, M.mul N = .ok L → ∀ x ∈ L.entries, x.denom = 1) ∧
    (∀ L, M.scale s = .ok L → ∀ x ∈ L.entries, x.denom = 1) ∧
    (∀ x, M.dot N = .ok x → x.denom = 1) := by
  let _ := field b
  have c := closedRing_int b
  exact ⟨Mat.over_add c hM hN, Mat.over_mul c hM hN, Mat.over_scale c hM hs, Mat.over_dot c hM hN⟩

/-- Dividing `3 x^2 y + x - 7` by `-x + 2`: the hypotheses hold and the division returns. -/
example (b : Build) (k : OrdKind) :
    letI := field b
    let f : Poly Rational := [⟨⟨3, 1⟩, [2]⟩, ⟨⟨1, 1⟩, [1]⟩, ⟨⟨-7, 1⟩, []⟩]
    let g : Poly Rational := [⟨⟨-1, 1⟩, [1]⟩, ⟨⟨2, 1⟩, []⟩]
    leadingTerm (k.order b) g = .ok (some ⟨⟨-1, 1⟩, [1]⟩) ∧
    divide (k.order b) f [g] =
      .ok ([⟨⟨7, 1⟩, []⟩], [[⟨⟨-3, 1⟩, [1]⟩, ⟨⟨-7, 1⟩, []⟩]]) := by
  let _ := field b
  constructor
  · cases b <;> cases k <;> decide +kernel
  · cases b <;> cases k <;> exact loop_eq_of_iter (n := 10) (by decide +kernel) (by simp)

/-- Dividing `x^2` by `3 x - 1` needs thirds and no other fractions. -/
example (k : OrdKind) :
    letI := field .debug
    let f : Poly Rational := [⟨⟨1, 1⟩, [2]⟩]
    let g : Poly Rational := [⟨⟨3, 1⟩, [1]⟩, ⟨⟨-1, 1⟩, []⟩]
    (∀ t, leadingTerm (k.order .debug) g = .ok (some t) → (val t.coef)⁻¹ ∈ Subring.closure {(1 / 3 : ℚ)}) ∧
    divide (k.order .debug) f [g] =
      .ok ([⟨⟨1, 9⟩, []⟩], [[⟨⟨1, 3⟩, [1]⟩, ⟨⟨1, 9⟩, []⟩]]) := by
  let _ := field .debug
  constructor
  · intro t ht
    have : leadingTerm (k.order .debug) [(⟨⟨3, 1⟩, [1]⟩ : Term Rational), ⟨⟨-1, 1⟩, []⟩] =
        .ok (some ⟨⟨3, 1⟩, [1]⟩) := by
      cases k <;> decide +kernel
    rw [this] at ht
    cases ht
    refine Subring.subset_closure ?_
    norm_num [val]
  · cases k <;> exact loop_eq_of_iter (n := 10) (by decide +kernel) (by simp)

/-- Without overflow checks the products wrap around and remain integers. -/
example :
    letI := field .release
    Poly.mul [⟨(⟨2 ^ 62, 1⟩ : Rational), [1]⟩] [⟨⟨2 ^ 62 + 3, 1⟩, [2]⟩] = .ok [⟨⟨-2 ^ 62, 1⟩, [3]⟩] := by
  let _ := field .release
  decide +kernel

end Rational

end Verif
