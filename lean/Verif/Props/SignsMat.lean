import Verif.Props.Signs
import Verif.Props.Num
import Verif.Proofs.WeighMat
import Mathlib.Tactic.IntervalCases

/-!
# Property C212: changing the signs of rows and columns of a matrix
-/

namespace Verif
open Res LinAlg

/-! ### Floats -/

namespace Flt
variable [Fmt]

theorem UpToSign.abs_eq {u : ℤˣ} {x y : Flt} (h : UpToSign u x y) : abs x = abs y := by
  have e : abs (flip u x) = abs x := by
    rcases Int.units_eq_one_or u with rfl | rfl
    · rw [flip_one]
    · rw [flip_neg_one]; cases x <;> rfl
  rw [← e]
  rcases h with h | ⟨⟨s, h⟩, t, h'⟩
  · rw [h]
  · rw [h, h']; rfl

/-- Elimination over floats respects signs. -/
theorem pivotOps (b : Build) (powi : Flt → Int → Flt) :
    letI := field b powi
    PivotOps (fun _ => False) (UpToSign : ℤˣ → Flt → Flt → Prop) := by
  let _ := field b powi
  have hw := weighOps b powi
  have hsub : ∀ {u : ℤˣ} {x y x' y' : Flt}, UpToSign u x y → UpToSign u x' y' →
      UpToSign u (Flt.sub x x') (Flt.sub y y') := fun h h' => (hw.add h (hw.neg h').rel).rel
  refine { hw with sub := ?_, eps := ?_, stab := ?_, nonzero := ?_ }
  · intro u x y x' y' h h'
    exact Near.ok (hsub h h')
  · intro u x y h
    refine Near.ok ?_
    change lt _ _ = lt _ _
    rw [(hsub h (hw.zero u)).abs_eq]
  · intro u v x y x' y' h h'
    refine Near.ok ?_
    change partialCmp _ _ = partialCmp _ _
    rw [h.abs_eq, h'.abs_eq]
  · intro x hx
    cases hb : RField.beq x RField.zero with
    | false => rfl
    | true =>
      have hb' : Flt.eq x zero = true := hb
      rw [eq_zero_iff] at hb'
      obtain ⟨s, rfl⟩ := hb'
      have : epsilonEquals (fin s 0) zero = true := by
        cases s <;> fmt_decide
      have hx' : Res.ok (epsilonEquals (fin s 0) zero) = Res.ok false := hx
      rw [this] at hx'
      cases hx'

end Flt

/-! ### Rational numbers -/

namespace Rational

/-- The denominators agree and the numerators differ by the sign `u`. -/
structure SignOf (u : ℤˣ) (x y : Rational) : Prop where
  wf : WF x
  numer : y.numer = u * x.numer
  denom : y.denom = x.denom

theorem SignOf.wf' {u : ℤˣ} {x y : Rational} (h : SignOf u x y) : WF y :=
  ⟨by rw [h.denom]; exact h.wf.denom_pos, fun h0 => by
    rw [h.numer] at h0
    rw [h.denom]
    exact h.wf.zero_canon (by simpa using h0)⟩

theorem SignOf.val {u : ℤˣ} {x y : Rational} (h : SignOf u x y) : y.val = ((u : ℤ) : ℚ) * x.val := by
  unfold Rational.val
  rw [h.numer, h.denom]
  push_cast
  ring

theorem SignOf.of_simplest {u : ℤˣ} {x y : Rational} (hx : Simplest x) (hy : Simplest y)
    (h : y.val = ((u : ℤ) : ℚ) * x.val) : SignOf u x y := by
  have hs : Simplest ⟨u * x.numer, x.denom⟩ := by
    refine ⟨hx.denom_pos, ?_⟩
    rcases Int.units_eq_one_or u with rfl | rfl
    · simpa using hx.coprime
    · simpa using hx.coprime
  have := simplest_ext hy hs (by
    rw [h]
    unfold Rational.val
    push_cast
    ring)
  subst this
  exact ⟨hx.wf, rfl, rfl⟩

theorem SignOf.eq_zero {u : ℤˣ} {x y : Rational} (h : SignOf u x y) : x = ZERO ↔ y = ZERO := by
  rw [← wf_val_zero h.wf, ← wf_val_zero h.wf', h.val]
  simp

theorem SignOf.add {u : ℤˣ} {x y x' y' : Rational} (h : SignOf u x y) (h' : SignOf u x' y') :
    Near IsOverflow (SignOf u) (Rational.add .debug x x') (Rational.add .debug y y') := by
  unfold Rational.add
  refine (near_of_spec (Integer.mul_spec _ _) (Integer.mul_spec _ _)).bind ?_
  rintro _ _ ⟨rfl, rfl⟩
  refine (near_of_spec (Integer.mul_spec _ _) (Integer.mul_spec _ _)).bind ?_
  rintro _ _ ⟨rfl, rfl⟩
  refine (near_of_spec (Integer.add_spec _ _) (Integer.add_spec _ _)).bind ?_
  rintro _ _ ⟨rfl, rfl⟩
  have e : y.numer * y'.denom + y'.numer * y.denom = u * (x.numer * x'.denom + x'.numer * x.denom) := by
    rw [h.numer, h.denom, h'.numer, h'.denom]; ring
  rw [e]
  generalize hs : x.numer * x'.denom + x'.numer * x.denom = s
  by_cases h0 : s = 0
  · subst h0
    simp only [Integer.isZero, mul_zero, decide_true, if_true]
    exact Near.ok ⟨wf_ZERO, by simp [ZERO], rfl⟩
  · have h1 : ¬ (u : ℤ) * s = 0 := by simpa using h0
    simp only [Integer.isZero, h0, h1, decide_false, Bool.false_eq_true, if_false]
    refine (near_of_spec (Integer.mul_spec _ _) (Integer.mul_spec _ _)).bind ?_
    rintro _ _ ⟨rfl, rfl⟩
    exact Near.ok ⟨⟨mul_pos h.wf.denom_pos h'.wf.denom_pos, fun h2 => absurd h2 h0⟩, rfl,
      by rw [h.denom, h'.denom]; rfl⟩

theorem SignOf.sub {u : ℤˣ} {x y x' y' : Rational} (h : SignOf u x y) (h' : SignOf u x' y') :
    Near IsOverflow (SignOf u) (Rational.sub .debug x x') (Rational.sub .debug y y') := by
  unfold Rational.sub
  refine (near_of_spec (Integer.mul_spec _ _) (Integer.mul_spec _ _)).bind ?_
  rintro _ _ ⟨rfl, rfl⟩
  refine (near_of_spec (Integer.mul_spec _ _) (Integer.mul_spec _ _)).bind ?_
  rintro _ _ ⟨rfl, rfl⟩
  refine (near_of_spec (Integer.sub_spec _ _) (Integer.sub_spec _ _)).bind ?_
  rintro _ _ ⟨rfl, rfl⟩
  have e : y.numer * y'.denom - y'.numer * y.denom = u * (x.numer * x'.denom - x'.numer * x.denom) := by
    rw [h.numer, h.denom, h'.numer, h'.denom]; ring
  rw [e]
  generalize hs : x.numer * x'.denom - x'.numer * x.denom = s
  by_cases h0 : s = 0
  · subst h0
    simp only [Integer.isZero, mul_zero, decide_true, if_true]
    exact Near.ok ⟨wf_ZERO, by simp [ZERO], rfl⟩
  · have h1 : ¬ (u : ℤ) * s = 0 := by simpa using h0
    simp only [Integer.isZero, h0, h1, decide_false, Bool.false_eq_true, if_false]
    refine (near_of_spec (Integer.mul_spec _ _) (Integer.mul_spec _ _)).bind ?_
    rintro _ _ ⟨rfl, rfl⟩
    exact Near.ok ⟨⟨mul_pos h.wf.denom_pos h'.wf.denom_pos, fun h2 => absurd h2 h0⟩, rfl,
      by rw [h.denom, h'.denom]; rfl⟩

/-- The operations and comparisons of `Rational` in an overflow-checked build respect signs. -/
theorem pivotOps :
    letI := field .debug
    letI := stability .debug
    PivotOps IsOverflow (SignOf : ℤˣ → Rational → Rational → Prop) := by
  let _ := field .debug
  let _ := stability .debug
  have hv : ∀ {u : ℤˣ} {x y : Rational}, SignOf u x y → decide (x = ZERO) = decide (y = ZERO) := fun h => by
    rw [Bool.eq_iff_iff, decide_eq_true_iff, decide_eq_true_iff]; exact h.eq_zero
  have hz : ∀ {x : Rational}, WF x → RField.beq x RField.zero = false → x.val ≠ 0 := fun hx h h0 => by
    have := (wf_val_zero hx).mp h0
    exact absurd h (by rw [this]; decide)
  have hb : ∀ {u : ℤˣ} {x y : Rational}, SignOf u x y →
      (RField.beq x RField.zero : Bool) = RField.beq y RField.zero := fun h => hv h
  refine ⟨⟨⟨rfl, ?_, ?_, hb, SignOf.add, ?_, ?_, ?_, ?_⟩, SignOf.sub⟩, ?_, ?_, ?_⟩
  · intro u
    exact ⟨wf_ZERO, by change (0 : ℤ) = u * 0; simp, rfl⟩
  · exact ⟨wf_ONE, by change (1 : ℤ) = ((1 : ℤˣ) : ℤ) * 1; simp, rfl⟩
  · intro u x y h
    refine (near_of_spec (neg_spec x) (neg_spec y)).imp fun a b ⟨h1, h2⟩ => ⟨⟨?_, ?_⟩, ?_, ?_⟩
    · rw [h1.2]; exact h.wf.denom_pos
    · rw [h1.1, h1.2]; exact fun h0 => h.wf.zero_canon (by omega)
    · rw [h2.1, h1.1, h.numer]; ring
    · rw [h2.2, h1.2, h.denom]
  · intro u v x y x' y' h h'
    refine (near_of_spec (mul_spec x x' h.wf.denom_pos h'.wf.denom_pos)
      (mul_spec y y' h.wf'.denom_pos h'.wf'.denom_pos)).imp fun a b ⟨h1, h2⟩ => SignOf.of_simplest h1.1 h2.1 ?_
    rw [h2.2, h1.2, h.val, h'.val]
    push_cast
    ring
  · intro u v x y x' y' h h' h0
    refine (near_of_spec (div_spec x x' h.wf.denom_pos h'.wf.denom_pos (hz h'.wf h0))
      (div_spec y y' h.wf'.denom_pos h'.wf'.denom_pos (hz h'.wf' (hb h' ▸ h0)))).imp fun a b ⟨h1, h2⟩ =>
        SignOf.of_simplest h1.1 h2.1 ?_
    rw [h2.2, h1.2, h.val, h'.val]
    rcases Int.units_eq_one_or v with rfl | rfl
    · simp [mul_div_assoc]
    · simp [mul_div_assoc, div_neg]
  · intro u x y h h0
    change Near _ _ (recip .debug x) (recip .debug y)
    unfold recip
    refine (near_of_spec (Integer.mul_spec _ _) (Integer.mul_spec _ _)).bind ?_
    rintro _ _ ⟨rfl, rfl⟩
    refine (near_of_spec (Integer.mul_spec _ _) (Integer.mul_spec _ _)).bind ?_
    rintro _ _ ⟨rfl, rfl⟩
    have hn : x.numer ≠ 0 := fun hn => hz h.wf h0 (by unfold Rational.val; rw [hn]; simp)
    have hp : 0 < x.numer.sign * x.numer := by rw [Int.sign_mul_self_eq_abs]; exact abs_pos.mpr hn
    have hs : Integer.sgn y.numer = u * Integer.sgn x.numer := by
      unfold Integer.sgn
      rw [h.numer, Int.sign_mul]
      rcases Int.units_eq_one_or u with rfl | rfl <;> rfl
    have hu : (u : ℤ) * u = 1 := by rcases Int.units_eq_one_or u with rfl | rfl <;> rfl
    refine Near.ok ⟨⟨hp, fun h2 => ?_⟩, ?_, ?_⟩
    · have h2 : x.numer.sign * x.denom = 0 := h2
      have := h.wf.denom_pos
      rcases mul_eq_zero.mp h2 with h2 | h2
      · exact absurd (Int.sign_eq_zero_iff_zero.mp h2) hn
      · omega
    · change Integer.sgn y.numer * y.denom = (u⁻¹ : ℤˣ) * (Integer.sgn x.numer * x.denom)
      rw [hs, h.denom, Int.units_inv_eq_self]; ring
    · change Integer.sgn y.numer * y.numer = Integer.sgn x.numer * x.numer
      rw [hs, h.numer, mul_mul_mul_comm, hu, one_mul]
  · intro u x y h
    exact Near.ok (hv h)
  · intro u v x y x' y' h h'
    change Near _ _ (stabilityCmp .debug x x') (stabilityCmp .debug y y')
    unfold stabilityCmp
    have e1 := h.eq_zero
    have e2 := h'.eq_zero
    by_cases hx : x = ZERO
    · rw [if_pos hx, if_pos (e1.mp hx)]; exact Near.ok rfl
    · rw [if_neg hx, if_neg (fun h => hx (e1.mpr h))]
      by_cases hx' : x' = ZERO
      · rw [if_pos hx', if_pos (e2.mp hx')]; exact Near.ok rfl
      · rw [if_neg hx', if_neg (fun h => hx' (e2.mpr h))]
        have a : ∀ {u : ℤˣ} {x y : Rational}, SignOf u x y → y.numer.natAbs = x.numer.natAbs := fun h => by
          rw [h.numer, Int.natAbs_mul, Int.units_natAbs, one_mul]
        refine (near_of_spec (Integer.abs_spec _) (Integer.abs_spec _)).bind ?_
        rintro _ _ ⟨rfl, rfl⟩
        refine (near_of_spec (Integer.abs_spec _) (Integer.abs_spec _)).bind ?_
        rintro _ _ ⟨rfl, rfl⟩
        refine (near_of_spec (Integer.add_spec _ _) (Integer.add_spec _ _)).bind ?_
        rintro _ _ ⟨rfl, rfl⟩
        refine (near_of_spec (Integer.abs_spec _) (Integer.abs_spec _)).bind ?_
        rintro _ _ ⟨rfl, rfl⟩
        refine (near_of_spec (Integer.abs_spec _) (Integer.abs_spec _)).bind ?_
        rintro _ _ ⟨rfl, rfl⟩
        refine (near_of_spec (Integer.add_spec _ _) (Integer.add_spec _ _)).bind ?_
        rintro _ _ ⟨rfl, rfl⟩
        rw [a h, a h', h.denom, h'.denom]
        exact Near.ok rfl
  · intro x hx
    have hx' : Res.ok (decide (x = ZERO)) = Res.ok false := hx
    exact Res.ok.inj hx'

end Rational

variable {n m : ℕ} (σ τ : ℕ → ℤˣ)

section
variable [Fmt] (b : Build) (powi : Flt → Int → Flt)

/-- C212, `lu` over floats: if the entries of `M'` are those of `M` with the sign `σ i * τ j`, up to the sign of zero,
`lu` treats both alike.  It returns the same permutation, and the factors differ by signs for their rows and
columns; nothing is rounded differently. -/
theorem C212_lu_f64 (M M' : Mat Flt) (h : MW Flt.UpToSign n m (fun i j => σ i * τ j) M M')
    (hn : n * n < 18446744073709551616) :
    letI := Flt.field b powi
    Rel (fun d d' => ∃ (l : List ℕ) (κ : ℕ → ℤˣ), d.p = Mat.permutationFromVec l ∧
        d'.p = Mat.permutationFromVec l ∧ l.length = n ∧
        MW Flt.UpToSign n n (fun i j => σ (l.getD i 0) * κ j) d.l d'.l ∧
        MW Flt.UpToSign n m (fun i j => (κ i)⁻¹ * τ j) d.u d'.u)
      M.lu M'.lu := by
  let _ := Flt.field b powi
  exact (Mat.lu_w (Flt.pivotOps b powi) h hn).rel

/-- C212, `row_echelon` over floats: the row echelon forms and the transformations differ by signs, `rank` and
`nullity` agree. -/
theorem C212_row_echelon_f64 (M M' : Mat Flt) (h : MW Flt.UpToSign n m (fun i j => σ i * τ j) M M')
    (hn : n * n < 18446744073709551616) :
    letI := Flt.field b powi
    Rel (fun f g => (∃ ρ : ℕ → ℤˣ, MW Flt.UpToSign n m (fun i j => ρ i * τ j) f.b g.b ∧
        MW Flt.UpToSign n n (fun i j => ρ i * (σ j)⁻¹) f.p g.p) ∧ f.rank = g.rank ∧ f.nullity = g.nullity)
      M.rowEchelon M'.rowEchelon := by
  let _ := Flt.field b powi
  have O := Flt.pivotOps b powi
  exact ((Mat.rowEchelon_w O h hn).imp fun f g ⟨ρ, h⟩ =>
    ⟨⟨ρ, h.b, h.p⟩, (h.rank O).rel.eq, (h.nullity O).rel.eq⟩).rel

/-- `lu` of `(1 3; 3 1)` and of `(-1 3; 3 -1)`, in which a row and a column have changed signs. -/
theorem C212_run_f64 : letI := Flt.field b (fun _ _ => Flt.nan)
    letI t := Flt.div Flt.one three
    letI w := Flt.sub three t
    (⟨[Flt.one, three, three, Flt.one], 2, 2⟩ : Mat Flt).lu = .ok ⟨⟨[Flt.zero, Flt.one, Flt.one, Flt.zero], 2, 2⟩,
      ⟨[three, Flt.zero, Flt.one, w], 2, 2⟩, ⟨[Flt.one, t, Flt.zero, Flt.one], 2, 2⟩⟩ ∧
    (⟨[Flt.neg Flt.one, three, three, Flt.neg Flt.one], 2, 2⟩ : Mat Flt).lu =
      .ok ⟨⟨[Flt.zero, Flt.one, Flt.one, Flt.zero], 2, 2⟩,
      ⟨[three, Flt.zero, Flt.neg Flt.one, w], 2, 2⟩, ⟨[Flt.one, Flt.neg t, Flt.zero, Flt.one], 2, 2⟩⟩ := by
  let _ := Flt.field b (fun _ _ => Flt.nan)
  constructor
  · cases b <;> fmt_decide
  · cases b <;> fmt_decide

example : MW Flt.UpToSign 2 2 (fun i j => (if i = 0 then -1 else 1) * if j = 0 then 1 else -1)
    (⟨[Flt.one, three, three, Flt.one], 2, 2⟩ : Mat Flt)
    ⟨[Flt.neg Flt.one, three, three, Flt.neg Flt.one], 2, 2⟩ := by
  let _ := Flt.field .debug (fun _ _ => Flt.nan)
  have h : ∀ l : List Flt, l.length = 4 → Mat.Shape (⟨l, 2, 2⟩ : Mat Flt) 2 2 := fun l h =>
    ⟨rfl, rfl, h, by decide, by decide, by decide⟩
  refine ⟨_, _, (h _ rfl).has, (h _ rfl).has, fun i j hi hj => ?_⟩
  interval_cases i <;> interval_cases j <;> exact .inl rfl

end

/-- C212, `lu` over `Rational`, in an overflow-checked build and unless a number overflows. -/
theorem C212_lu (M M' : Mat Rational) (h : MW Rational.SignOf n m (fun i j => σ i * τ j) M M')
    (hn : n * n < 18446744073709551616) :
    letI := Rational.field .debug
    letI := Rational.stability .debug
    Near IsOverflow (fun d d' => ∃ (l : List ℕ) (κ : ℕ → ℤˣ), d.p = Mat.permutationFromVec l ∧
        d'.p = Mat.permutationFromVec l ∧ l.length = n ∧
        MW Rational.SignOf n n (fun i j => σ (l.getD i 0) * κ j) d.l d'.l ∧
        MW Rational.SignOf n m (fun i j => (κ i)⁻¹ * τ j) d.u d'.u)
      M.lu M'.lu := by
  let _ := Rational.field .debug
  let _ := Rational.stability .debug
  exact Mat.lu_w Rational.pivotOps h hn

/-- C212, `row_echelon` over `Rational`. -/
theorem C212_row_echelon (M M' : Mat Rational) (h : MW Rational.SignOf n m (fun i j => σ i * τ j) M M')
    (hn : n * n < 18446744073709551616) :
    letI := Rational.field .debug
    letI := Rational.stability .debug
    Near IsOverflow (fun f g => ∃ ρ : ℕ → ℤˣ, MW Rational.SignOf n m (fun i j => ρ i * τ j) f.b g.b ∧
        MW Rational.SignOf n n (fun i j => ρ i * (σ j)⁻¹) f.p g.p)
      M.rowEchelon M'.rowEchelon := by
  let _ := Rational.field .debug
  let _ := Rational.stability .debug
  exact (Mat.rowEchelon_w Rational.pivotOps h hn).imp fun f g ⟨ρ, h⟩ => ⟨ρ, h.b, h.p⟩

theorem C212_run : letI := Rational.field .debug
    letI := Rational.stability .debug
    Mat.rowEchelon (⟨[⟨2, 1⟩, ⟨1, 1⟩, ⟨1, 1⟩, ⟨3, 1⟩], 2, 2⟩ : Mat Rational) =
      .ok ⟨⟨[⟨0, 1⟩, ⟨1, 1⟩, ⟨-1, 5⟩, ⟨2, 5⟩], 2, 2⟩, ⟨[⟨1, 1⟩, ⟨3, 1⟩, ⟨0, 1⟩, ⟨1, 1⟩], 2, 2⟩,
        ⟨[⟨2, 1⟩, ⟨1, 1⟩, ⟨1, 1⟩, ⟨3, 1⟩], 2, 2⟩⟩ ∧
    Mat.rowEchelon (⟨[⟨-2, 1⟩, ⟨1, 1⟩, ⟨1, 1⟩, ⟨-3, 1⟩], 2, 2⟩ : Mat Rational) =
      .ok ⟨⟨[⟨0, 1⟩, ⟨1, 1⟩, ⟨-1, 5⟩, ⟨-2, 5⟩], 2, 2⟩, ⟨[⟨1, 1⟩, ⟨-3, 1⟩, ⟨0, 1⟩, ⟨1, 1⟩], 2, 2⟩,
        ⟨[⟨-2, 1⟩, ⟨1, 1⟩, ⟨1, 1⟩, ⟨-3, 1⟩], 2, 2⟩⟩ := by
  decide +kernel

end Verif
