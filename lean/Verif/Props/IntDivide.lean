import Verif.Proofs.IntDivide
import Verif.Props.IntRat
import Verif.Props.Division
import Verif.Props.Total
import Mathlib.Algebra.Order.Antidiag.FinsuppEquiv
import Mathlib.Data.Nat.Choose.Sum

/-!
# Property C186: division and evaluation of polynomials with small integer coefficients

`C116` and `C109` bound sums and products.  Division by polynomials whose leading coefficients are `1`
or `-1` needs no fractions either; the coefficients that it meets are bounded by the number of its passes,
and that by the number of monomials of at most the degree of the dividend.
-/

namespace Verif
open Res LawfulRField LinAlg Computer MvPolynomial

/-- The monomials in `n` variables of total degree at most `d`. -/
noncomputable def monomialsUpTo (n d : ℕ) : Finset (Fin n →₀ ℕ) := by
  classical exact (Finset.range (d + 1)).biUnion fun i => Finset.univ.finsuppAntidiag i

theorem mem_monomialsUpTo {n d : ℕ} {e : Fin n →₀ ℕ} (h : ∑ s, e s ≤ d) : e ∈ monomialsUpTo n d := by
  classical
  unfold monomialsUpTo
  rw [Finset.mem_biUnion]
  refine ⟨∑ s, e s, Finset.mem_range.mpr (by omega), Finset.mem_finsuppAntidiag.mpr ⟨rfl, ?_⟩⟩
  exact Finset.subset_univ _

/-- There are at most `(n + d).choose n` of them. -/
theorem card_monomialsUpTo (n d : ℕ) : (monomialsUpTo n d).card ≤ (n + d).choose n := by
  classical
  unfold monomialsUpTo
  refine Finset.card_biUnion_le.trans (le_of_eq ?_)
  rw [add_comm n d, ← Nat.sum_range_multichoose d n]
  refine Finset.sum_congr rfl fun i _ => ?_
  rw [Finset.card_finsuppAntidiag_nat_eq_multichoose]
  simp

namespace IntData
variable {F : Type} [RField F] [LawfulRField F ℚ] {D : IntData F} {n : ℕ}

theorem in_degree {p : Poly F} {N : ℕ} (hp : Poly.Clean (Fin n) p) (h : ∀ t ∈ p, t.mdeg.sum ≤ N) :
    Poly.In (fun e : Fin n →₀ ℕ => ∑ s, e s ≤ N) p := by
  intro t ht
  have hl := (MDeg.inVars_fin (hp.terms t ht).mdeg).mp (hp.terms t ht).vars
  rw [← tot_extend, extend_toF hl, ← sum_eq_tot hl]
  exact h t ht

/-- Division with a graded order, or in one variable. -/
theorem divide_total (hu : D.DivUnit) (k : OrdKind) (hk : k.graded = true ∨ n = 1) {N : ℚ} (hN : 0 ≤ N)
    {d : ℕ} (hd : d ≤ 255) {f : Poly F} {divs : List (Poly F)} (hf : Poly.Clean (Fin n) f)
    (hfd : ∀ t ∈ f, t.mdeg.sum ≤ d) (hfi : D.IntPoly f) (hg : ∀ g ∈ divs, Poly.Clean (Fin n) g)
    (hgd : ∀ g ∈ divs, ∀ t ∈ g, t.mdeg.sum ≤ 255) (hgi : ∀ g ∈ divs, D.IntPoly g)
    (hgN : ∀ g ∈ divs, l1 g ≤ N)
    (hgu : ∀ g ∈ divs, g ≠ [] → (k.mathlib n).leadingCoeff (Poly.den (Fin n) g) = 1 ∨
      (k.mathlib n).leadingCoeff (Poly.den (Fin n) g) = -1)
    (hb : l1 f * (N + 2) ^ (n + d).choose n ≤ D.B) :
    ∃ x, divide (k.order .debug) f divs = .ok x ∧ D.IntPoly x.1 ∧ (∀ q ∈ x.2, D.IntPoly q) ∧
      l1 x.1 + l1s x.2 ≤ l1 f * (N + 2) ^ (n + d).choose n := by
  have hO : ∃ B : (Fin n →₀ ℕ) → Prop, LawfulOrder (k.order .debug) (k.mathlib n) B (fun _ => False) ∧
      (∀ e, B e ↔ ∑ s, e s ≤ 255) ∧
      ∀ a b, ∑ s, b s ≤ d → (k.mathlib n).toSyn a ≤ (k.mathlib n).toSyn b → ∑ s, a s ≤ d := by
    rcases hk with hk | rfl
    · refine ⟨_, OrdKind.lawful_graded k hk n, fun e => Iff.rfl, fun a b hb hab => ?_⟩
      have : tot n (extend a) ≤ tot n (extend b) := by
        rcases hab.lt_or_eq with h | h
        · rw [OrdKind.mathlib_lt] at h
          cases k
          · simp [OrdKind.graded] at hk
          · simp [OrdKind.graded] at hk
          · rcases h with h | h
            · exact h.le
            · exact h.1.le
          · rcases h with h | h
            · exact h.le
            · exact h.1.le
        · rw [(k.mathlib n).toSyn.injective h]
      rw [tot_extend, tot_extend] at this
      exact this.trans hb
    · refine ⟨_, OrdKind.lawful_one k, fun e => by simp, fun a b hb hab => ?_⟩
      simp only [Fin.sum_univ_one] at hb ⊢
      by_contra h
      have hlt : b ≤ a := fun i => by rw [Subsingleton.elim i 0]; omega
      have := le_antisymm hab ((k.mathlib 1).toSyn_monotone hlt)
      rw [(k.mathlib 1).toSyn.injective this] at h
      exact h hb
  obtain ⟨B, hO, hB, hdown⟩ := hO
  have hin : ∀ {p : Poly F}, Poly.Clean (Fin n) p → (∀ t ∈ p, t.mdeg.sum ≤ 255) → Poly.In B p :=
    fun hp h t ht => (hB _).mpr (in_degree hp h t ht)
  have hcard : (N + 2) ^ (monomialsUpTo n d).card ≤ (N + 2) ^ (n + d).choose n :=
    pow_le_pow_right₀ (by linarith) (card_monomialsUpTo n d)
  have hle := mul_le_mul_of_nonneg_left hcard (l1_nonneg f)
  have hdeg : ∑ s, (k.mathlib n).degree (Poly.den (Fin n) f) s ≤ d := by
    by_cases h0 : Poly.den (Fin n) f = 0
    · rw [h0, MonomialOrder.degree_zero]; simp
    · obtain ⟨t, ht, he⟩ := (Poly.mem_support_den hf).mp ((k.mathlib n).degree_mem_support h0)
      rw [← he]; exact in_degree hf hfd t ht
  obtain ⟨x, hx, h1, h2, h3⟩ := divide_int hO hu hN hf (hin hf fun t ht => (hfd t ht).trans hd) hfi
    (fun g h => ⟨hg g h, hin (hg g h) (hgd g h), hgi g h, hgN g h, hgu g h⟩)
    (monomialsUpTo n d) (fun e he => mem_monomialsUpTo (hdown _ _ hdeg he)) (hle.trans hb)
  exact ⟨x, hx, h1, h2, h3.trans hle⟩

end IntData

/-! ## `Rational` -/

namespace Rational
variable (b : Build)

theorem IsInt.div_unit {x y : Rational} {i j : ℤ} (hx : IsInt x i) (hy : IsInt y j) (hj : j = 1 ∨ j = -1) :
    ∃ z, div b x y = .ok z ∧ IsInt z (i * j) := by
  obtain ⟨rfl, hi⟩ := hx
  obtain ⟨rfl, -⟩ := hy
  have hr := inRange_of_abs hi
  have hr' := inRange_of_abs (i := -i) (by rwa [abs_neg])
  unfold Rational.div Integer.mul
  simp only [mul_one, one_mul]
  rcases hj with rfl | rfl
  · rw [I64.norm_eq hr, bind_ok, I64.norm_eq (by decide), bind_ok]
    unfold new Integer.isZero
    rw [if_neg (by decide), Integer.gcd_eq b _ _ hr (by decide),
      if_neg (by rintro (⟨-, h⟩ | ⟨-, h⟩) <;> exact absurd h (by decide)), Int.gcd_one,
      I64.norm_eq (by decide), bind_ok]
    unfold Integer.mul Integer.sgn Integer.div Integer.abs
    rw [show Int.sign 1 * i = i by simp, I64.norm_eq hr, bind_ok]
    simp only [Nat.cast_one, one_ne_zero, if_false]
    rw [if_neg (by simp), bind_ok, I64.norm_eq (by decide), bind_ok, if_neg (by simp), bind_ok]
    simp only [newUnchecked, Int.tdiv_one, Int.natAbs_one, Nat.cast_one]
    exact ⟨_, rfl, by simp, by simpa using hi⟩
  · rw [I64.norm_eq hr, bind_ok, I64.norm_eq (by decide), bind_ok]
    have hg : Int.gcd i (-1) = 1 := by simp
    unfold new Integer.isZero
    rw [if_neg (by decide), Integer.gcd_eq b _ _ hr (by decide),
      if_neg (by
        rintro (⟨h, -⟩ | ⟨-, h⟩)
        · subst h; revert hi; decide
        · exact absurd h (by decide)), hg,
      I64.norm_eq (by decide), bind_ok]
    unfold Integer.mul Integer.sgn Integer.div Integer.abs
    rw [show Int.sign (-1) * i = -i by simp, I64.norm_eq hr', bind_ok]
    simp only [Nat.cast_one, one_ne_zero, if_false]
    rw [if_neg (by simp), bind_ok, I64.norm_eq (by decide), bind_ok, if_neg (by simp), bind_ok]
    simp only [newUnchecked, Int.tdiv_one]
    exact ⟨_, rfl, by simp, by simpa using hi⟩

theorem divUnit : @IntData.DivUnit Rational (field .debug) lawful intData :=
  fun hx hy _ hj => IsInt.div_unit .debug hx hy hj

theorem l1_eq (p : Poly Rational) (h : ∀ t ∈ p, t.coef.denom = 1) :
    @IntData.l1 Rational (field .debug) lawful p = (((p.map fun t => |t.coef.numer|).sum : ℤ) : ℚ) := by
  let _ := field .debug
  let _ := lawful
  induction p with
  | nil => simp [IntData.l1]
  | cons t p ih =>
    rw [IntData.l1_cons, ih fun u hu => h u (List.mem_cons_of_mem _ hu)]
    have : (LawfulRField.val t.coef : ℚ) = t.coef.numer := by
      change (t.coef.numer : ℚ) / t.coef.denom = _
      rw [h t List.mem_cons_self]; simp
    rw [this]
    simp

/-- C186: division of polynomials with integer coefficients by polynomials whose leading coefficients
are `1` or `-1`, with a graded order or in one variable.  If the sum of the absolute values of the
coefficients of the dividend, times `N + 2` to the power of the number of monomials of total degree at
most `d`, is below `2^63`, then `divide` returns in both builds, without a panic; quotients and remainder
have integer coefficients, and are those of the division over `ℚ`. -/
theorem C186_divide {n : ℕ} (k : OrdKind) (hk : k.graded = true ∨ n = 1) (f : Poly Rational)
    (divs : List (Poly Rational)) (d N : ℕ) (hd : d ≤ 255) :
    letI := field .debug
    letI := lawful
    Poly.Clean (Fin n) f → (∀ g ∈ divs, Poly.Clean (Fin n) g) →
    (∀ t ∈ f, t.mdeg.sum ≤ d) → (∀ g ∈ divs, ∀ t ∈ g, t.mdeg.sum ≤ 255) →
    (∀ t ∈ f, t.coef.denom = 1) → (∀ g ∈ divs, ∀ t ∈ g, t.coef.denom = 1) →
    (∀ g ∈ divs, (g.map fun t => |t.coef.numer|).sum ≤ N) →
    (∀ g ∈ divs, g ≠ [] → (k.mathlib n).leadingCoeff (Poly.den (Fin n) g) = 1 ∨
      (k.mathlib n).leadingCoeff (Poly.den (Fin n) g) = -1) →
    (f.map fun t => |t.coef.numer|).sum * (N + 2) ^ (n + d).choose n < 2 ^ 63 →
    ∃ r qs, @divide _ (field b) (k.order b) f divs = .ok (r, qs) ∧
      (∀ t ∈ r, t.coef.denom = 1) ∧ (∀ q ∈ qs, ∀ t ∈ q, t.coef.denom = 1) ∧
      qs.length = divs.length ∧
      IsDivision (k.mathlib n) (fun i : Fin divs.length => Poly.den (Fin n) (divs.get i))
        (Poly.den (Fin n) f) (fun i => Poly.den (Fin n) (qs.getD i [])) (Poly.den (Fin n) r) := by
  let _ := field .debug
  let _ := lawful
  intro hf hg hfd hgd hfi hgi hgN hgu hb
  have hsum0 : ∀ p : Poly Rational, 0 ≤ (p.map fun t => |t.coef.numer|).sum := fun p =>
    List.sum_nonneg (by simp only [List.mem_map]; rintro _ ⟨t, _, rfl⟩; exact abs_nonneg _)
  have hmem : ∀ {p : Poly Rational} {t}, t ∈ p → |t.coef.numer| ≤ (p.map fun t => |t.coef.numer|).sum := by
    intro p t ht
    induction p with
    | nil => cases ht
    | cons u p ih =>
      rw [List.map_cons, List.sum_cons]
      rcases List.mem_cons.mp ht with rfl | ht
      · linarith [hsum0 p]
      · linarith [ih ht, abs_nonneg u.coef.numer]
  have hint : ∀ p : Poly Rational, (∀ t ∈ p, t.coef.denom = 1) →
      (p.map fun t => |t.coef.numer|).sum < 2 ^ 63 → intData.IntPoly p := fun p h hb t ht =>
    ⟨t.coef.numer, by rw [← h t ht], by have := hmem ht; omega⟩
  have hden : ∀ {r : Poly Rational}, intData.IntPoly r → ∀ t ∈ r, t.coef.denom = 1 := by
    intro r h t ht
    obtain ⟨i, hi, -⟩ := h t ht
    rw [hi]
  have hex : ∃ x, divide (k.order .debug) f divs = .ok x ∧ intData.IntPoly x.1 ∧
      ∀ q ∈ x.2, intData.IntPoly q := by
    by_cases h0 : f = []
    · subst h0
      refine ⟨(Poly.zero, List.replicate divs.length Poly.zero), ?_, (by intro t ht; cases ht), ?_⟩
      · unfold divide
        rw [loop_unfold]
        rfl
      · intro q hq
        rw [List.eq_of_mem_replicate hq]
        intro t ht; cases ht
    obtain ⟨t, ht⟩ := List.exists_mem_of_ne_nil f h0
    have hf1 : 1 ≤ (f.map fun t => |t.coef.numer|).sum := by
      refine le_trans ?_ (hmem ht)
      have : t.coef.numer ≠ 0 := fun h0 => (hf.terms t ht).ne (by
        change (t.coef.numer : ℚ) / t.coef.denom = 0; rw [h0]; simp)
      have := abs_pos.mpr this
      omega
    have hch : 1 ≤ (n + d).choose n := Nat.choose_pos (by omega)
    have hN1 : ((N : ℤ) + 2) ≤ (N + 2) ^ (n + d).choose n := le_self_pow₀ (by omega) (by omega)
    have hp1 : (1 : ℤ) ≤ (N + 2) ^ (n + d).choose n := one_le_pow₀ (by omega)
    have hfb : (f.map fun t => |t.coef.numer|).sum < 2 ^ 63 := by nlinarith
    have hNb : (N : ℤ) < 2 ^ 63 := by nlinarith
    obtain ⟨x, hx, h1, h2, -⟩ := IntData.divide_total divUnit k hk (N := (N : ℚ)) (by positivity) hd hf hfd
      (hint f hfi hfb) hg hgd (fun g h => hint g (hgi g h) (lt_of_le_of_lt (hgN g h) hNb))
      (fun g h => by rw [l1_eq g (hgi g h)]; exact_mod_cast hgN g h) hgu
      (by
        rw [l1_eq f hfi, show intData.B = 9223372036854775807 from rfl]
        exact_mod_cast Int.le_of_lt_add_one hb)
    exact ⟨x, hx, h1, h2⟩
  obtain ⟨⟨r, qs⟩, hx, h1, h2⟩ := hex
  obtain ⟨h3, h4⟩ := (C120_determinate (k.implements n) f divs hf hg).of_ok hx
  exact ⟨r, qs, toRelease (f := fun b => @divide _ (field b) (k.order b) f divs) b
    (divide_refines releaseOps_refine (Flt.order_refines .release k) _ _) hx, hden h1,
    fun q hq => hden (h2 q hq), h3, h4⟩

/-! ### Evaluation -/

theorem pow_int (i : ℤ) {e : ℕ} (he : e < 256) (h : |i ^ e| ≤ 9223372036854775807) :
    powi b ⟨i, 1⟩ (e : ℤ) = .ok ⟨i ^ e, 1⟩ := by
  unfold powi Rational.pow Integer.isNeg Integer.pow
  rw [if_neg (by simp)]
  have : Integer.asU32 (e : ℤ) = e := by unfold Integer.asU32; omega
  rw [this, one_pow, I64.norm_eq (inRange_of_abs h), bind_ok, I64.norm_eq (by decide), bind_ok]
  rfl

/-- `∏ max(1, |xᵢ|)^eᵢ` -/
def powBound (m : MDeg) (x : List ℤ) : ℤ := ((m.zip x).map fun p => max 1 |p.2| ^ p.1).prod

theorem term_eval_int (l : List (ℕ × ℤ)) (hl : ∀ p ∈ l, p.1 < 256) (acc : Rational) (a : ℤ)
    (ha : IsInt acc a) (h1 : (l.map fun p => max 1 |p.2| ^ p.1).prod ≤ 9223372036854775807)
    (h2 : |a| * (l.map fun p => max 1 |p.2| ^ p.1).prod ≤ 9223372036854775807) :
    ∃ z, (l.map fun p => (p.1, (⟨p.2, 1⟩ : Rational))).foldlM
        (fun acc (x : ℕ × Rational) => do let v ← powi b x.2 (x.1 : ℤ); mul b acc v) acc = .ok z ∧
      IsInt z (a * (l.map fun p => p.2 ^ p.1).prod) ∧
      |a * (l.map fun p => p.2 ^ p.1).prod| ≤ |a| * (l.map fun p => max 1 |p.2| ^ p.1).prod := by
  have hw : ∀ p : ℕ × ℤ, 1 ≤ max 1 |p.2| ^ p.1 := fun p => one_le_pow₀ (le_max_left _ _)
  have hle : ∀ p : ℕ × ℤ, |p.2 ^ p.1| ≤ max 1 |p.2| ^ p.1 := fun p => by
    rw [abs_pow]; exact pow_le_pow_left₀ (abs_nonneg _) (le_max_right _ _) _
  induction l generalizing acc a with
  | nil => exact ⟨acc, rfl, by simpa using ha, by simp⟩
  | cons p l ih =>
    simp only [List.map_cons, List.prod_cons] at h1 h2 ⊢
    have hp1 : 1 ≤ (l.map fun p => max 1 |p.2| ^ p.1).prod := by
      clear ih h1 h2 hl
      induction l with
      | nil => simp
      | cons q l ih => rw [List.map_cons, List.prod_cons]; nlinarith [hw q]
    have hwp := hw p
    have hlp := hle p
    have h0 := abs_nonneg (p.2 ^ p.1)
    have ha0 := abs_nonneg a
    generalize (l.map fun p => max 1 |p.2| ^ p.1).prod = R at *
    have h3 : |p.2 ^ p.1| ≤ 9223372036854775807 := by nlinarith
    have h4 : |a * p.2 ^ p.1| ≤ |a| * max 1 |p.2| ^ p.1 := by
      rw [abs_mul]; exact mul_le_mul_of_nonneg_left hlp ha0
    have h5 : |a * p.2 ^ p.1| * R ≤ |a| * (max 1 |p.2| ^ p.1 * R) := by
      rw [← mul_assoc]; exact mul_le_mul_of_nonneg_right h4 (by omega)
    obtain ⟨w, hw', hwi⟩ := ha.mul b (y := ⟨p.2 ^ p.1, 1⟩) ⟨rfl, h3⟩ (by
      have := abs_nonneg (a * p.2 ^ p.1); nlinarith)
    obtain ⟨z, hz, hzi, hzb⟩ := ih (fun q hq => hl q (List.mem_cons_of_mem _ hq)) w _ hwi
      (by nlinarith) (h5.trans h2)
    rw [List.foldlM_cons, pow_int b _ (hl p List.mem_cons_self) h3, bind_ok, hw', bind_ok]
    rw [mul_assoc] at hzi hzb
    exact ⟨z, hz, hzi, hzb.trans h5⟩

/-- C186: evaluation of a polynomial with integer coefficients at integers.  If
`Σ |c| ∏ max(1, |xᵢ|)^eᵢ` over the terms is below `2^63`, `eval` returns the value, in both builds. -/
theorem C186_eval (p : Poly Rational) (x : List ℤ) :
    letI := field .debug
    letI := lawful
    Poly.Clean ℕ p → (∀ t ∈ p, t.coef.denom = 1) →
    (∀ t ∈ p, t.mdeg.length ≤ x.length) →
    (p.map fun t => |t.coef.numer| * powBound t.mdeg x).sum < 2 ^ 63 →
    ∃ v : ℤ, @Poly.eval _ (field b) p (x.map fun i => ⟨i, 1⟩) = .ok ⟨v, 1⟩ ∧
      (v : ℚ) = MvPolynomial.eval (fun i => (x.getD i 0 : ℚ)) (Poly.den ℕ p) := by
  let _ := field .debug
  let _ := lawful
  intro hp hi hl hb
  have hpb : ∀ m, 1 ≤ powBound m x := by
    intro m
    unfold powBound
    generalize m.zip x = l
    induction l with
    | nil => simp
    | cons q l ih =>
      have : 1 ≤ max 1 |q.2| ^ q.1 := one_le_pow₀ (le_max_left _ _)
      rw [List.map_cons, List.prod_cons]; nlinarith
  have hterm : ∀ t ∈ p, |t.coef.numer| * powBound t.mdeg x ≤ 9223372036854775807 →
      ∃ z i, (t.eval (x.map fun i => (⟨i, 1⟩ : Rational)) : Res Rational) = .ok z ∧ IsInt z i ∧
        |i| ≤ |t.coef.numer| * powBound t.mdeg x := by
    intro t ht hbt
    have hn : 1 ≤ |t.coef.numer| := by
      have : t.coef.numer ≠ 0 := fun h0 => (hp.terms t ht).ne (by
        change (t.coef.numer : ℚ) / t.coef.denom = 0; rw [h0]; simp)
      have := abs_pos.mpr this
      omega
    have hp1 := hpb t.mdeg
    have hc : t.coef = ⟨t.coef.numer, 1⟩ := by rw [← hi t ht]
    obtain ⟨z, hz, h1, h2⟩ := term_eval_int .debug (t.mdeg.zip x)
      (fun q hq => (hp.terms t ht).mdeg.lt _ (List.of_mem_zip hq).1) t.coef t.coef.numer
      ⟨hc, by nlinarith⟩ (by change powBound t.mdeg x ≤ _; nlinarith) hbt
    refine ⟨z, _, ?_, h1, h2⟩
    unfold Term.eval MDeg.len
    rw [if_neg (by rw [List.length_map]; have := hl t ht; omega), List.zip_map_right]
    exact hz
  have hs0 : ∀ q : Poly Rational, 0 ≤ (q.map fun t => |t.coef.numer| * powBound t.mdeg x).sum := fun q =>
    List.sum_nonneg (by
      simp only [List.mem_map]; rintro _ ⟨t, _, rfl⟩
      exact mul_nonneg (abs_nonneg _) (by have := hpb t.mdeg; omega))
  have hfold : ∀ (q : Poly Rational), (∀ t ∈ q, t ∈ p) → ∀ acc a, IsInt acc a →
      |a| + (q.map fun t => |t.coef.numer| * powBound t.mdeg x).sum ≤ 9223372036854775807 →
      ∃ z i, (q.map fun t => t.eval (x.map fun i => (⟨i, 1⟩ : Rational))).foldlM
        (fun acc y => do let y ← y; add .debug acc y) acc = .ok z ∧ IsInt z i := by
    intro q
    induction q with
    | nil => intro _ acc a ha _; exact ⟨acc, a, rfl, ha⟩
    | cons t q ih =>
      intro hq acc a ha hb
      rw [List.map_cons, List.sum_cons] at hb
      have := hs0 q
      have := abs_nonneg a
      obtain ⟨z, i, hz, hzi, hzb⟩ := hterm t (hq t List.mem_cons_self) (by omega)
      have h3 := abs_add_le a i
      obtain ⟨w, hw, hwi⟩ := ha.add .debug hzi (by omega)
      obtain ⟨u, j, hu, huj⟩ := ih (fun t ht => hq t (List.mem_cons_of_mem _ ht)) w _ hwi (by omega)
      rw [List.map_cons, List.foldlM_cons, hz, bind_ok, hw, bind_ok]
      exact ⟨u, j, hu, huj⟩
  have hev : ∃ z i, (Poly.eval p (x.map fun i => (⟨i, 1⟩ : Rational)) : Res Rational) = .ok z ∧
      IsInt z i := by
    change ∃ z i, Rational.sum .debug _ = .ok z ∧ _
    unfold Rational.sum reduceM
    cases p with
    | nil => exact ⟨ZERO, 0, rfl, rfl, by decide⟩
    | cons t q =>
      rw [List.map_cons, List.sum_cons] at hb
      have := hs0 q
      obtain ⟨z, i, hz, hzi, hzb⟩ := hterm t List.mem_cons_self (by omega)
      obtain ⟨u, j, hu, huj⟩ := hfold q (fun t ht => List.mem_cons_of_mem _ ht) z i hzi (by omega)
      rw [List.map_cons]
      dsimp only
      rw [hz, bind_ok]
      exact ⟨u, j, hu, huj⟩
  obtain ⟨z, i, hz, rfl, -⟩ := hev
  refine ⟨i, toRelease (f := fun b => @Poly.eval _ (field b) p (x.map fun i => ⟨i, 1⟩)) b
    (Poly.eval_refines releaseOps_refine p _) hz, ?_⟩
  obtain ⟨-, -, hv⟩ := (C31_eval p hp _ (fun a ha => by
    obtain ⟨j, -, rfl⟩ := List.mem_map.mp ha
    exact ⟨Int.one_pos, fun _ => rfl⟩)).of_ok hz
  have h1 : (LawfulRField.val (⟨i, 1⟩ : Rational) : ℚ) = i := by
    change (i : ℚ) / ((1 : ℤ) : ℚ) = i; simp
  rw [h1] at hv
  rw [hv]
  congr 2
  funext k
  rw [List.getD_eq_getElem?_getD, List.getElem?_map, List.getD_eq_getElem?_getD]
  cases x[k]? with
  | none => exact LawfulRField.val_zero
  | some j => change (j : ℚ) / ((1 : ℤ) : ℚ) = j; simp

/-- `x³ − 2 x + 5` and `x² + 3` in one variable -/
def dF : Poly Rational := [⟨⟨1, 1⟩, [3]⟩, ⟨⟨-2, 1⟩, [1]⟩, ⟨⟨5, 1⟩, []⟩]
def dG : Poly Rational := [⟨⟨1, 1⟩, [2]⟩, ⟨⟨3, 1⟩, []⟩]

/-- `C186_divide` applies to `dF` and `[dG]` in one variable: `8 · 6⁴ < 2^63`. -/
example : letI := field .debug
    letI := lawful
    Poly.Clean (Fin 1) dF ∧ (∀ g ∈ [dG], Poly.Clean (Fin 1) g) ∧
    (∀ t ∈ dF, t.mdeg.sum ≤ 3) ∧ (∀ g ∈ [dG], ∀ t ∈ g, t.mdeg.sum ≤ 255) ∧
    (∀ t ∈ dF, t.coef.denom = 1) ∧ (∀ g ∈ [dG], ∀ t ∈ g, t.coef.denom = 1) ∧
    (∀ g ∈ [dG], (g.map fun t => |t.coef.numer|).sum ≤ (4 : ℕ)) ∧
    (dF.map fun t => |t.coef.numer|).sum * ((4 : ℕ) + 2) ^ (1 + 3).choose 1 < 2 ^ 63 ∧
    ∀ g ∈ [dG], g ≠ [] → (OrdKind.lex.mathlib 1).leadingCoeff (Poly.den (Fin 1) g) = 1 ∨
      (OrdKind.lex.mathlib 1).leadingCoeff (Poly.den (Fin 1) g) = -1 := by
  let _ := field .debug
  let _ := lawful
  have hc := sampleGens (k := 1) (gens := [dF, dG]) (by decide)
  have hG := (hc dG (by simp)).1
  refine ⟨(hc dF (by simp)).1, fun g hg => by rw [List.mem_singleton.mp hg]; exact hG, by decide,
    by decide, by decide, by decide, by decide, by decide, fun g hg _ => Or.inl ?_⟩
  rw [List.mem_singleton.mp hg]
  have h := (leadingTerm_spec (E := fun _ => False) (OrdKind.lawful_one .lex) hG fun t ht => ?_).of_ok
    (show leadingTerm (OrdKind.lex.order .debug) dG = .ok (some ⟨⟨1, 1⟩, [2]⟩) by decide +kernel)
  · rw [← h.2.2.2]
    change ((1 : ℤ) : ℚ) / ((1 : ℤ) : ℚ) = 1
    simp
  · have := MDeg.deg_lt (hG.terms t ht).mdeg.lt 0
    change t.mdeg.deg 0 ≤ 255
    omega

/-- `C186_eval` applies: `iF` (`2 x² − 3 y`) at `(−1000, 7)`. -/
example : (iF.map fun t => |t.coef.numer| * powBound t.mdeg [-1000, 7]).sum < 2 ^ 63 ∧
    (∀ t ∈ iF, t.mdeg.length ≤ [-1000, 7].length) ∧
    @Poly.eval _ (field .release) iF [⟨-1000, 1⟩, ⟨7, 1⟩] = .ok ⟨1999979, 1⟩ := by decide +kernel

/-- The bound of `C186_divide` is needed: dividing `x⁶⁴` by `x − 2` overflows, although the coefficients
are small. -/
example : letI := field .debug
    divide (F := Rational) (OrdKind.lex.order .debug) [⟨⟨1, 1⟩, [64]⟩] [[⟨⟨1, 1⟩, [1]⟩, ⟨⟨-2, 1⟩, []⟩]] =
      .panic .overflowI64 := by
  let _ := field .debug
  exact (divideN_approx 80 _ _).eq (by decide +kernel) (by simp)

end Rational

/-! ## `f32` and `f64` -/

namespace Flt
open Fmt
variable [Fmt] (b : Build) (powi : Flt → Int → Flt)

theorem div_unit {x y : Flt} {i j : ℤ} (hx : IsInt x i) (hy : IsInt y j) (hj : j = 1 ∨ j = -1)
    (hi : |i| ≤ 2 ^ (sig + 1)) : IsInt (div x y) (i * j) := by
  have hm : |i * j| ≤ 2 ^ (sig + 1) := by rcases hj with rfl | rfl <;> simpa using hi
  have := hx.mul hy hm
  obtain ⟨s, n, rfl, -⟩ := hx.exists_fin
  obtain ⟨t, m, rfl, h⟩ := hy.exists_fin
  have hu := unit_pos
  have hmu : m = unit := by
    have h1 : (units t m).natAbs = m := by unfold units; split <;> simp
    rw [← h1, h, Int.natAbs_mul, Int.natAbs_natCast]
    rcases hj with rfl | rfl <;> simp
  subst hmu
  rw [div_fin _ _ _ _ hu.ne']
  rwa [mul_fin] at this

theorem divUnit : @IntData.DivUnit Flt (exact powi) (exactF64 powi) (intData powi) := by
  intro x y i j hx hy hi hj
  have h := div_unit hx hy hj hi
  refine ⟨_, chk_ok h ?_, h⟩
  rw [IsInt.rat hx, IsInt.rat hy]
  rcases hj with rfl | rfl
  · simp
  · push_cast; rw [div_neg, div_one]; ring

/-- C186: division of floating point polynomials with integer coefficients by polynomials whose leading
coefficients are `1` or `-1` is exact while `Σ |c| · (N + 2)^(n + d choose n)` is at most `2^prec`. -/
theorem C186_divide {n : ℕ} (k : OrdKind) (hk : k.graded = true ∨ n = 1) (f : Poly Flt)
    (divs : List (Poly Flt)) (d N : ℕ) (hd : d ≤ 255) :
    letI := exact powi
    letI := exactF64 powi
    Poly.Clean (Fin n) f → (∀ g ∈ divs, Poly.Clean (Fin n) g) →
    (∀ t ∈ f, t.mdeg.sum ≤ d) → (∀ g ∈ divs, ∀ t ∈ g, t.mdeg.sum ≤ 255) →
    (∀ t ∈ f, ∃ i : ℤ, t.coef.value = some (i : ℚ)) →
    (∀ g ∈ divs, ∀ t ∈ g, ∃ i : ℤ, t.coef.value = some (i : ℚ)) →
    (∀ g ∈ divs, (g.map fun t => |t.coef.rat|).sum ≤ N) →
    (∀ g ∈ divs, g ≠ [] → (k.mathlib n).leadingCoeff (Poly.den (Fin n) g) = 1 ∨
      (k.mathlib n).leadingCoeff (Poly.den (Fin n) g) = -1) →
    (f.map fun t => |t.coef.rat|).sum * (N + 2) ^ (n + d).choose n ≤ 2 ^ prec →
    ∃ r qs, @divide _ (field b powi) (k.order b) f divs = .ok (r, qs) ∧
      (∀ t ∈ r, ∃ i : ℤ, t.coef.value = some (i : ℚ)) ∧
      (∀ q ∈ qs, ∀ t ∈ q, ∃ i : ℤ, t.coef.value = some (i : ℚ)) ∧ qs.length = divs.length ∧
      IsDivision (k.mathlib n) (fun i : Fin divs.length => Poly.den (Fin n) (divs.get i))
        (Poly.den (Fin n) f) (fun i => Poly.den (Fin n) (qs.getD i [])) (Poly.den (Fin n) r) := by
  let _ := exact powi
  let _ := exactF64 powi
  intro hf hg hfd hgd hfi hgi hgN hgu hb
  obtain ⟨⟨r, qs⟩, hx, h1, h2, -⟩ := IntData.divide_total (divUnit powi) k hk (N := (N : ℚ))
    (by positivity) hd hf hfd hfi hg hgd hgi hgN hgu (by exact_mod_cast hb)
  obtain ⟨h3, h4⟩ := (C120_determinate (k.implements n) f divs hf hg).of_ok hx
  exact ⟨r, qs, divide_refines (ops_refine b) (order_refines b k) _ _ _ hx, h1, h2, h3, h4⟩

end Flt
end Verif
