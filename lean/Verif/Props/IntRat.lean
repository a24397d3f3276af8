import Verif.Props.F64Exact

/-!
# C116: integer data over `Rational` never overflows when it is small

`Rational` computes with `i64` numerators and denominators, and panics (debug) or wraps around (release)
when one of them overflows.  On integers this does not happen while the numbers that the computation can
meet are below `2^63` in absolute value, so the results below hold in both builds, without exception.
-/

namespace Verif
open Res LawfulRField LinAlg
namespace Rational

/-- The number is `i/1`, and `|i| < 2^63`. -/
def IsInt (x : Rational) (i : ℤ) : Prop := x = ⟨i, 1⟩ ∧ |i| ≤ 9223372036854775807

theorem inRange_of_abs {i : ℤ} (h : |i| ≤ 9223372036854775807) : I64.InRange i := by
  have := abs_le.mp h
  unfold I64.InRange; omega

variable {x y : Rational} {i j : ℤ} (b : Build)

theorem IsInt.add (hx : IsInt x i) (hy : IsInt y j) (h : |i + j| ≤ 9223372036854775807) :
    ∃ z, add b x y = .ok z ∧ IsInt z (i + j) := by
  obtain ⟨rfl, hi⟩ := hx
  obtain ⟨rfl, hj⟩ := hy
  unfold Rational.add Integer.mul Integer.add Integer.isZero
  simp only [mul_one]
  rw [I64.norm_eq (inRange_of_abs hi), bind_ok, I64.norm_eq (inRange_of_abs hj), bind_ok,
    I64.norm_eq (inRange_of_abs h), bind_ok]
  split
  · rename_i h0
    have : i + j = 0 := by simpa using h0
    rw [this]
    exact ⟨_, rfl, rfl, by decide⟩
  · rw [I64.norm_eq (by decide), bind_ok]
    exact ⟨_, rfl, rfl, h⟩

theorem IsInt.sub (hx : IsInt x i) (hy : IsInt y j) (h : |i - j| ≤ 9223372036854775807) :
    ∃ z, sub b x y = .ok z ∧ IsInt z (i - j) := by
  obtain ⟨rfl, hi⟩ := hx
  obtain ⟨rfl, hj⟩ := hy
  unfold Rational.sub Integer.mul Integer.sub Integer.isZero
  simp only [mul_one]
  rw [I64.norm_eq (inRange_of_abs hi), bind_ok, I64.norm_eq (inRange_of_abs hj), bind_ok,
    I64.norm_eq (inRange_of_abs h), bind_ok]
  split
  · rename_i h0
    have : i - j = 0 := by simpa using h0
    rw [this]
    exact ⟨_, rfl, rfl, by decide⟩
  · rw [I64.norm_eq (by decide), bind_ok]
    exact ⟨_, rfl, rfl, h⟩

theorem IsInt.neg (hx : IsInt x i) : ∃ z, neg b x = .ok z ∧ IsInt z (-i) := by
  obtain ⟨rfl, hi⟩ := hx
  unfold Rational.neg Integer.neg
  rw [← abs_neg] at hi
  rw [I64.norm_eq (inRange_of_abs hi), bind_ok]
  exact ⟨_, rfl, rfl, hi⟩

theorem IsInt.mul (hx : IsInt x i) (hy : IsInt y j) (h : |i * j| ≤ 9223372036854775807) :
    ∃ z, mul b x y = .ok z ∧ IsInt z (i * j) := by
  obtain ⟨rfl, hi⟩ := hx
  obtain ⟨rfl, hj⟩ := hy
  unfold Rational.mul Integer.mul
  simp only [mul_one]
  generalize i * j = k at h
  have hr := inRange_of_abs h
  have h1 : I64.InRange 1 := by decide
  rw [I64.norm_eq hr, bind_ok, I64.norm_eq h1, bind_ok]
  unfold new Integer.isZero
  rw [if_neg (by decide), Integer.gcd_eq b _ _ hr h1,
    if_neg (by rintro (⟨-, h⟩ | ⟨-, h⟩) <;> exact absurd h (by decide)), Int.gcd_one,
    I64.norm_eq (by decide), bind_ok]
  unfold Integer.mul Integer.sgn Integer.div Integer.abs
  rw [show Int.sign 1 * k = k by simp, I64.norm_eq hr, bind_ok]
  simp only [Nat.cast_one, one_ne_zero, if_false]
  rw [if_neg (by simp), bind_ok, I64.norm_eq (by decide), bind_ok, if_neg (by simp), bind_ok]
  simp only [newUnchecked, Int.tdiv_one, Int.natAbs_one, Nat.cast_one]
  exact ⟨_, rfl, rfl, h⟩

/-- `IntData` of `Rational`. -/
def intData : @IntData Rational (field .debug) lawful :=
  let _ := field .debug
  let _ := lawful
  { B := 9223372036854775807
    isInt := IsInt
    val_eq := fun {x i} h => by rw [h.1]; simp [LawfulRField.val, val]
    isInt_zero := ⟨rfl, by decide⟩
    add_ok := IsInt.add .debug
    neg_ok := fun h _ => h.neg .debug
    mul_ok := IsInt.mul .debug }

/-- What debug returns, release returns. -/
theorem toRelease {α : Type} {f : Build → Res α} (h : Refines (f .debug) (f .release)) {r : α}
    (hr : f .debug = .ok r) : f b = .ok r := by
  cases b
  · exact hr
  · exact h _ hr

/-- C116: sums, differences and products of integers are computed as long as they are in range. -/
theorem C116_arith (i j : ℤ) (hi : |i| < 2 ^ 63) (hj : |j| < 2 ^ 63) :
    (|i + j| < 2 ^ 63 → add b ⟨i, 1⟩ ⟨j, 1⟩ = .ok ⟨i + j, 1⟩) ∧
    (|i - j| < 2 ^ 63 → sub b ⟨i, 1⟩ ⟨j, 1⟩ = .ok ⟨i - j, 1⟩) ∧
    neg b ⟨i, 1⟩ = .ok ⟨-i, 1⟩ ∧
    (|i * j| < 2 ^ 63 → mul b ⟨i, 1⟩ ⟨j, 1⟩ = .ok ⟨i * j, 1⟩) := by
  have h1 : IsInt ⟨i, 1⟩ i := ⟨rfl, by omega⟩
  have h2 : IsInt ⟨j, 1⟩ j := ⟨rfl, by omega⟩
  refine ⟨fun h => ?_, fun h => ?_, ?_, fun h => ?_⟩
  · obtain ⟨z, hz, rfl, -⟩ := h1.add b h2 (by omega); exact hz
  · obtain ⟨z, hz, rfl, -⟩ := h1.sub b h2 (by omega); exact hz
  · obtain ⟨z, hz, rfl, -⟩ := h1.neg b; exact hz
  · obtain ⟨z, hz, rfl, -⟩ := h1.mul b h2 (by omega); exact hz

theorem poly_mul_nil (p : Poly Rational) : @Poly.mul _ (field b) p [] = .ok [] := by
  let _ := field b
  have h : ∀ t : Term Rational, Poly.mulTerm [] t = .ok [] := by
    intro t; unfold Poly.mulTerm
    rw [if_pos (by simp [Poly.isZero])]; rfl
  unfold Poly.mul
  simp only [h]
  cases p with
  | nil => rfl
  | cons t p =>
    rw [List.map_cons, reduceM, bind_ok]
    induction p with
    | nil => rfl
    | cons u p ih => rw [List.map_cons, List.foldlM_cons, bind_ok]; exact ih

/-- C116: sums, differences and products of polynomials with integer coefficients are computed, in
both builds, and have integer coefficients, if the sum (for products, the product) of the sums of the
absolute values of their coefficients is below `2^63` (and exponents do not exceed 255). -/
theorem C116_poly (p q : Poly Rational) :
    letI := field .debug
    letI := lawful
    Poly.Clean ℕ p → Poly.Clean ℕ q → (∀ t ∈ p, t.coef.denom = 1) → (∀ t ∈ q, t.coef.denom = 1) →
    ((p.map fun t => |t.coef.numer|).sum + (q.map fun t => |t.coef.numer|).sum < 2 ^ 63 →
      (∃ r, @Poly.add _ (field b) p q = .ok r ∧ Poly.Clean ℕ r ∧
        Poly.den ℕ r = Poly.den ℕ p + Poly.den ℕ q ∧ ∀ t ∈ r, t.coef.denom = 1) ∧
      ∃ r, @Poly.sub _ (field b) p q = .ok r ∧ Poly.Clean ℕ r ∧
        Poly.den ℕ r = Poly.den ℕ p - Poly.den ℕ q ∧ ∀ t ∈ r, t.coef.denom = 1) ∧
    ((p.map fun t => |t.coef.numer|).sum * (q.map fun t => |t.coef.numer|).sum < 2 ^ 63 →
      (∀ t ∈ p, ∀ u ∈ q, ∀ i, t.mdeg.deg i + u.mdeg.deg i ≤ 255) →
      ∃ r, @Poly.mul _ (field b) p q = .ok r ∧ Poly.Clean ℕ r ∧
        Poly.den ℕ r = Poly.den ℕ p * Poly.den ℕ q ∧ ∀ t ∈ r, t.coef.denom = 1) := by
  let _ := field .debug
  let _ := lawful
  intro hp hq ip iq
  have hl1 : ∀ p : Poly Rational, (∀ t ∈ p, t.coef.denom = 1) →
      IntData.l1 p = (((p.map fun t => |t.coef.numer|).sum : ℤ) : ℚ) := by
    intro p h
    induction p with
    | nil => simp [IntData.l1]
    | cons t p ih =>
      rw [IntData.l1_cons, ih fun u hu => h u (List.mem_cons_of_mem _ hu)]
      have : (LawfulRField.val t.coef : ℚ) = t.coef.numer := by
        change (t.coef.numer : ℚ) / t.coef.denom = _
        rw [h t List.mem_cons_self]; simp
      rw [this]
      simp
  have hsum0 : ∀ p : Poly Rational, 0 ≤ (p.map fun t => |t.coef.numer|).sum := fun p =>
    List.sum_nonneg (by simp only [List.mem_map]; rintro _ ⟨t, _, rfl⟩; exact abs_nonneg _)
  have hmem : ∀ {p : Poly Rational} {t}, t ∈ p → |t.coef.numer| ≤ (p.map fun t => |t.coef.numer|).sum := by
    intro p t ht
    induction p with
    | nil => cases ht
    | cons u p ih =>
      rw [List.map_cons, List.sum_cons]
      rcases List.mem_cons.mp ht with rfl | ht
      · linarith [hsum0 p]
      · linarith [ih ht, abs_nonneg u.coef.numer]
  have hint : ∀ p : Poly Rational, (∀ t ∈ p, t.coef.denom = 1) →
      (p.map fun t => |t.coef.numer|).sum < 2 ^ 63 → intData.IntPoly p := fun p h hb t ht =>
    ⟨t.coef.numer, by
      rw [← h t ht], by have := hmem ht; omega⟩
  have hden : ∀ {r : Poly Rational}, intData.IntPoly r → ∀ t ∈ r, t.coef.denom = 1 := by
    intro r h t ht
    obtain ⟨i, hi, -⟩ := h t ht
    rw [hi]
  have hz := Term.zero_ok (F := Rational) (K := ℚ) (σ := ℕ)
  have hB : intData.B = 9223372036854775807 := rfl
  refine ⟨fun hb => ?_, fun hb hd => ?_⟩
  · have jp := hint p ip (by linarith [hsum0 q])
    have jq := hint q iq (by linarith [hsum0 p])
    have hb' : IntData.l1 p + IntData.l1 q ≤ intData.B := by
      rw [hl1 p ip, hl1 q iq, hB]; exact_mod_cast (by omega)
    constructor
    · obtain ⟨r, hr, h1, -⟩ := intData.add_int jp jq hb'
      have := (C25_add p q _ _ hp hq hz hz).1.of_ok hr
      exact ⟨r, toRelease (f := fun b => @Poly.add _ (field b) p q) b
        (Poly.add_refines releaseOps_refine p q) hr, this.1, this.2, hden h1⟩
    · obtain ⟨r, hr, h1, -⟩ := intData.sub_int jp jq hb'
      have := (C26_sub p q _ _ hp hq hz hz).2.2.1.of_ok hr
      exact ⟨r, toRelease (f := fun b => @Poly.sub _ (field b) p q) b
        (Poly.sub_refines releaseOps_refine p q) hr, this.1, this.2, hden h1⟩
  · have hpos : ∀ {p : Poly Rational}, Poly.Clean ℕ p → p ≠ [] →
        1 ≤ (p.map fun t => |t.coef.numer|).sum := by
      intro p hp h
      obtain ⟨t, ht⟩ := List.exists_mem_of_ne_nil p h
      refine le_trans ?_ (hmem ht)
      have : t.coef.numer ≠ 0 := fun h0 => (hp.terms t ht).ne (by
        change (t.coef.numer : ℚ) / t.coef.denom = 0; rw [h0]; simp)
      have := abs_pos.mpr this
      omega
    by_cases h0 : p = []
    · subst h0; exact ⟨[], rfl, hp, by simp [Poly.den], by simp⟩
    by_cases h1 : q = []
    · subst h1; exact ⟨[], poly_mul_nil b p, hq, by simp [Poly.den], by simp⟩
    have g0 := hpos hp h0
    have g1 := hpos hq h1
    have jp := hint p ip (by nlinarith)
    have jq := hint q iq (by nlinarith)
    have hb' : IntData.l1 p * IntData.l1 q ≤ intData.B := by
      rw [hl1 p ip, hl1 q iq, hB]; exact_mod_cast (by omega)
    obtain ⟨r, hr, h1, -⟩ := intData.mul_int jp jq hb' fun t ht u hu => by
      refine (C16_add _ _ (hq.terms u hu).mdeg (hp.terms t ht).mdeg).2.2.mpr fun i => ?_
      rw [add_comm]; exact hd t ht u hu i
    have := (C27_mul p q _ _ ZERO hp hq hz hz wf_ZERO).1.of_ok hr
    exact ⟨r, toRelease (f := fun b => @Poly.mul _ (field b) p q) b
      (Poly.mul_refines releaseOps_refine p q) hr, this.1, this.2, hden h1⟩

theorem intMat_of_represents {n m : ℕ} (A : Matrix (Fin n) (Fin m) ℤ) (M : Mat Rational) :
    letI := field .debug
    letI := lawful
    M.Represents (A.map (Int.cast : ℤ → ℚ)) → (∀ x ∈ M.entries, x.denom = 1) →
    (∀ i j, |A i j| < 2 ^ 63) → intData.IntMat M n m (Flt.intExt A) := by
  let _ := field .debug
  let _ := lawful
  intro h hd hb
  have hi := h.is
  rw [Flt.matExt_map] at hi
  refine ⟨hi, fun x hx => ?_⟩
  obtain ⟨k, hk⟩ := List.getElem?_of_mem hx
  have hkl : k < n * m := by rw [← hi.len]; exact (List.getElem?_eq_some_iff.mp hk).1
  obtain ⟨y, hy, hw, hv⟩ := hi.entries hkl
  rw [hk] at hy
  cases hy
  obtain ⟨h1, h2, -⟩ := rowMajor_divMod hkl
  rw [Flt.intExt_of_lt A h1 h2] at hv
  have h3 := hd x hx
  have h4 : x.numer = A ⟨_, h1⟩ ⟨_, h2⟩ := by
    change (x.numer : ℚ) / x.denom = _ at hv
    rw [h3] at hv
    simpa using hv
  refine ⟨x.numer, by rw [← h3], ?_⟩
  have := hb ⟨_, h1⟩ ⟨_, h2⟩
  rw [h4]; omega

/-- C116: sums and products of integer matrices are computed, in both builds, and are integer
matrices, if the entries, the entries of the sum, and for products the sums of the absolute values of the
products of entries, are below `2^63`. -/
theorem C116_mat {n m q : ℕ} (M M' N : Mat Rational) (A A' : Matrix (Fin n) (Fin m) ℤ)
    (B : Matrix (Fin m) (Fin q) ℤ) (hnq : n * q < 18446744073709551616) :
    letI := field .debug
    letI := lawful
    M.Represents (A.map (Int.cast : ℤ → ℚ)) → M'.Represents (A'.map (Int.cast : ℤ → ℚ)) →
    N.Represents (B.map (Int.cast : ℤ → ℚ)) →
    (∀ x ∈ M.entries, x.denom = 1) → (∀ x ∈ M'.entries, x.denom = 1) → (∀ x ∈ N.entries, x.denom = 1) →
    (∀ i j, |A i j| < 2 ^ 63) → (∀ i j, |A' i j| < 2 ^ 63) → (∀ i j, |B i j| < 2 ^ 63) →
    ((∀ i j, |A i j + A' i j| < 2 ^ 63) → ∃ R, @Mat.add _ (field b) M M' = .ok R ∧
      R.Represents ((A + A').map (Int.cast : ℤ → ℚ)) ∧ ∀ x ∈ R.entries, x.denom = 1) ∧
    ((∀ i j, ∑ k, |A i k * B k j| < 2 ^ 63) → ∃ R, @Mat.mul _ (field b) M N = .ok R ∧
      R.Represents ((A * B).map (Int.cast : ℤ → ℚ)) ∧ ∀ x ∈ R.entries, x.denom = 1) := by
  let _ := field .debug
  let _ := lawful
  intro hM hM' hN dM dM' dN bA bA' bB
  have e1 := intMat_of_represents A M hM dM bA
  have e2 := intMat_of_represents A' M' hM' dM' bA'
  have e3 := intMat_of_represents B N hN dN bB
  have hden : ∀ {R : Mat Rational}, (∀ x ∈ R.entries, ∃ i, intData.isInt x i) →
      ∀ x ∈ R.entries, x.denom = 1 := by
    intro R h x hx
    obtain ⟨i, hi, -⟩ := h x hx
    rw [hi]
  have hB : intData.B = 9223372036854775807 := rfl
  refine ⟨fun hb => ?_, fun hb => ?_⟩
  · obtain ⟨R, hR, hi⟩ := intData.matAdd_int e1 e2 fun i j hi hj => by
      rw [Flt.intExt_of_lt A hi hj, Flt.intExt_of_lt A' hi hj, hB]
      have := hb ⟨i, hi⟩ ⟨j, hj⟩
      omega
    refine ⟨R, toRelease (f := fun b => @Mat.add _ (field b) M M') b
      (Mat.add_refines releaseOps_refine M M') hR, ?_, hden hi⟩
    have := (C52_add M M' _ _ hM hM').of_ok hR
    convert this using 1
    ext i j
    simp
  · obtain ⟨R, hR, hi⟩ := intData.matMul_int e1 e3 fun i j hi hj => by
      rw [Finset.sum_range, hB]
      have := hb ⟨i, hi⟩ ⟨j, hj⟩
      refine le_of_eq_of_le ?_ (Int.le_of_lt_add_one (a := ∑ k, |A ⟨i, hi⟩ k * B k ⟨j, hj⟩|) (by omega))
      refine Finset.sum_congr rfl fun k _ => ?_
      rw [Flt.intExt_of_lt A hi k.2, Flt.intExt_of_lt B k.2 hj]
    refine ⟨R, toRelease (f := fun b => @Mat.mul _ (field b) M N) b
      (Mat.mul_refines releaseOps_refine M N) hR, ?_, hden hi⟩
    have := (C52_mul M N _ _ hM hN hnq).of_ok hR
    convert this using 1
    ext i j
    simp [Matrix.mul_apply]

/-- C116: inner products of integer vectors are computed, in both builds, if the entries and the sum
of the absolute values of the products are below `2^63`. -/
theorem C116_dot {n : ℕ} (M N : Mat Rational) (v w : Fin n → ℤ) :
    letI := field .debug
    letI := lawful
    M.RepresentsVec (fun i => (v i : ℚ)) → N.RepresentsVec (fun i => (w i : ℚ)) →
    (∀ x ∈ M.entries, x.denom = 1) → (∀ x ∈ N.entries, x.denom = 1) →
    (∀ i, |v i| < 2 ^ 63) → (∀ i, |w i| < 2 ^ 63) →
    (∑ i, |v i * w i| < 2 ^ 63) →
    @Mat.dot _ (field b) M N = .ok ⟨v ⬝ᵥ w, 1⟩ := by
  let _ := field .debug
  let _ := lawful
  intro hM hN dM dN bv bw hb
  have hmap : ∀ v : Fin n → ℤ, (Matrix.of fun i (_ : Fin 1) => (v i : ℚ)) =
      (Matrix.of fun i (_ : Fin 1) => v i).map (Int.cast : ℤ → ℚ) := fun v => rfl
  have e1 := intMat_of_represents (Matrix.of fun i (_ : Fin 1) => v i) M hM dM fun i _ => bv i
  have e2 := intMat_of_represents (Matrix.of fun i (_ : Fin 1) => w i) N hN dN fun i _ => bw i
  obtain ⟨c, hc, i, hi, -⟩ := intData.matDot_int e1 e2 (by
    rw [Finset.sum_range]
    refine le_of_eq_of_le ?_ (Int.le_of_lt_add_one (a := ∑ i, |v i * w i|)
      (b := 9223372036854775807) (by omega))
    refine Finset.sum_congr rfl fun k _ => ?_
    rw [Finset.sum_range_one, Flt.intExt_of_lt _ k.2 one_pos, Flt.intExt_of_lt _ k.2 one_pos]
    rfl)
  obtain ⟨hw, hv⟩ := (C56_dot M N _ _ hM hN).of_ok hc
  have hr := toRelease (f := fun b => @Mat.dot _ (field b) M N) b
      (Mat.dot_refines releaseOps_refine M N) hc
  refine hr.trans (congrArg _ ?_)
  rw [hi] at hv ⊢
  have : (i : ℚ) = ((v ⬝ᵥ w : ℤ) : ℚ) := by
    have h1 : (LawfulRField.val (⟨i, 1⟩ : Rational) : ℚ) = i := by
      change (i : ℚ) / ((1 : ℤ) : ℚ) = i; simp
    rw [← h1, hv]; simp [dotProduct]
  rw [Int.cast_injective this]

/-- The bound is needed: beyond it debug panics and release returns a wrong number. -/
example : add .debug ⟨2 ^ 63 - 1, 1⟩ ⟨1, 1⟩ = .panic .overflowI64 ∧
    add .release ⟨2 ^ 63 - 1, 1⟩ ⟨1, 1⟩ = .ok ⟨-2 ^ 63, 1⟩ := by decide +kernel

/-- `2 x² − 3 y` -/
def iF : Poly Rational := [⟨⟨2, 1⟩, [2]⟩, ⟨⟨-3, 1⟩, [0, 1]⟩]

/-- `C116_poly` applies. -/
example : letI := field .debug
    letI := lawful
    Poly.Clean ℕ iF ∧ (∀ t ∈ iF, t.coef.denom = 1) ∧
    (iF.map fun t => |t.coef.numer|).sum * (iF.map fun t => |t.coef.numer|).sum < 2 ^ 63 ∧
    (∀ t ∈ iF, ∀ u ∈ iF, ∀ i, t.mdeg.deg i + u.mdeg.deg i ≤ 255) := by
  let _ := field .debug
  let _ := lawful
  refine ⟨⟨fun t ht => ?_, by decide⟩, by decide, by decide, ?_⟩
  · simp only [iF, List.mem_cons, List.not_mem_nil, or_false] at ht
    rcases ht with rfl | rfl
    · exact ⟨⟨⟨by decide, by decide⟩, by decide, MDeg.inVars_nat _⟩,
        by change ((2 : ℤ) : ℚ) / ((1 : ℤ) : ℚ) ≠ 0; norm_num⟩
    · exact ⟨⟨⟨by decide, by decide⟩, by decide, MDeg.inVars_nat _⟩,
        by change ((-3 : ℤ) : ℚ) / ((1 : ℤ) : ℚ) ≠ 0; norm_num⟩
  · have h : ∀ t ∈ iF, ∀ i, t.mdeg.deg i ≤ 2 := by
      intro t ht i
      simp only [iF, List.mem_cons, List.not_mem_nil, or_false] at ht
      rcases ht with rfl | rfl <;> rcases i with _ | _ | i <;> simp [MDeg.deg]
    intro t ht u hu i
    have := h t ht i
    have := h u hu i
    omega

/-- `C116_mat` applies. -/
example : letI := field .debug
    letI := lawful
    (ratMat 2 2 [1, -2, 3, 4]).Represents
      ((!![1, -2; 3, 4] : Matrix (Fin 2) (Fin 2) ℤ).map (Int.cast : ℤ → ℚ)) ∧
    (∀ x ∈ (ratMat 2 2 [1, -2, 3, 4]).entries, x.denom = 1) ∧
    ∀ i j, ∑ k, |(!![1, -2; 3, 4] : Matrix (Fin 2) (Fin 2) ℤ) i k *
      (!![1, -2; 3, 4] : Matrix (Fin 2) (Fin 2) ℤ) k j| < 2 ^ 63 := by
  let _ := field .debug
  let _ := lawful
  refine ⟨?_, by decide, by decide⟩
  have := ratMat_represents 2 2 [1, -2, 3, 4] rfl (by decide) (by decide) (by decide)
  have e : (!![1, -2; 3, 4] : Matrix (Fin 2) (Fin 2) ℤ).map (Int.cast : ℤ → ℚ) =
      (fun (i j : Fin 2) => (([1, -2, 3, 4].getD ((i : ℕ) * 2 + j) 0 : Int) : ℚ)) := by
    ext i j
    fin_cases i <;> fin_cases j <;> rfl
  rw [e]
  exact this

end Rational
end Verif
