import Verif.Proofs.Buchberger
import Verif.Proofs.Num
import Verif.Props.Elts
import Verif.Props.Ord

/-!
# Properties C34–C49: leading terms, division and Gröbner bases

`F` is a lawful coefficient field in an overflow-checked build: `Rational` (with `K = ℚ`) or an
exact field.  Polynomials live in `K[x_0, …, x_{n-1}] = MvPolynomial (Fin n) K`; any finite list of
polynomials does for some `n`.  `m` is a `MonomialOrder` of Mathlib, `m.toSyn` embeds exponents in
the linearly ordered type it compares in, and `m.degree`, `m.leadingCoeff` are the exponent and the
coefficient of the leading term.  `Implements O m`: the comparison function `O` of the program
answers as `m` does; the four orders of the crate do (`OrdKind.implements`).

`Spec E x P`: `x` terminates, a returned value satisfies `P`, a panic satisfies `E`.
-/

namespace Verif
open Res MvPolynomial LawfulRField

/-- The program's comparison `O` implements the monomial order `m`: on canonical multidegrees in `n`
variables it answers `compare` of `m`, or panics with a `u8` overflow (of a total degree). -/
def Implements {n : ℕ} (O : MOrder) (m : MonomialOrder (Fin n)) : Prop :=
  ∀ a b : MDeg, a.Clean → b.Clean → a.length ≤ n → b.length ≤ n →
    Spec (· = .overflowU8) (O.cmp a b)
      (fun o => o = compare (m.toSyn (a.toF (Fin n))) (m.toSyn (b.toF (Fin n))))

/-- The four orders of the crate implement the textbook orders (`OrdKind.mathlib_lt`: the order of
`k.mathlib n` is `k.Lt n`). -/
theorem OrdKind.implements (k : OrdKind) (n : ℕ) : Implements (k.order .debug) (k.mathlib n) :=
  fun a b ha hb hal hbl => (OrdKind.lawful (E := (· = .overflowU8)) k n rfl).cmp a b ha hb ((MDeg.inVars_fin ha).mpr hal)
    ((MDeg.inVars_fin hb).mpr hbl) trivial trivial

theorem Implements.lawful {n : ℕ} {O : MOrder} {m : MonomialOrder (Fin n)} (h : Implements O m)
    {E : Panic → Prop} (hE : E .overflowU8) : LawfulOrder O m (fun _ => True) E where
  down _ _ _ _ := trivial
  ovf := Or.inl hE
  cmp a b ha hb hav hbv _ _ :=
    (h a b ha hb ((MDeg.inVars_fin ha).mp hav) ((MDeg.inVars_fin hb).mp hbv)).mono
      (by rintro _ rfl; exact hE) fun _ h => h

variable {F : Type} [RField F] {K : Type} [Field K] [LawfulRField F K]
variable {n : ℕ} {O : MOrder} {m : MonomialOrder (Fin n)}

theorem polyPanic_allowed : ∀ p, allowed F p → PolyPanic F p := fun _ h => Or.inl h

theorem Implements.poly (h : Implements O m) : LawfulOrder O m (fun _ => True) (PolyPanic F) :=
  h.lawful (Or.inr rfl)

/-! ### Sample polynomials in two variables -/

section
attribute [local instance] Rational.lawful

theorem sampleTerm_clean_fin (n : ℕ) (a d : Int) (m : MDeg) (hn : a ≠ 0) (hd : 0 < d) (hm : m.Clean)
    (hl : m.length ≤ n) :
    @Term.Clean Rational (Rational.field .debug) ℚ _ Rational.lawful (Fin n) _ ⟨⟨a, d⟩, m⟩ := by
  let _ := Rational.field .debug
  have := sampleTerm_clean a d m hn hd hm
  exact ⟨⟨this.wf, hm, (MDeg.inVars_fin hm).mpr hl⟩, this.ne⟩

/-- A decidable sufficient condition for being canonical, for the examples. -/
def sampleOk (n : ℕ) (p : Poly Rational) : Prop :=
  (∀ t ∈ p, t.coef.numer ≠ 0 ∧ 0 < t.coef.denom ∧ t.mdeg.Clean ∧ t.mdeg.length ≤ n) ∧
    (p.map (·.mdeg)).Nodup

instance (n : ℕ) (p : Poly Rational) : Decidable (sampleOk n p) := by
  unfold sampleOk; infer_instance

theorem sampleOk.clean {n : ℕ} {p : Poly Rational} (h : sampleOk n p) :
    @Poly.Clean Rational (Rational.field .debug) ℚ _ Rational.lawful (Fin n) _ p := by
  let _ := Rational.field .debug
  refine ⟨fun t ht => ?_, h.2⟩
  obtain ⟨h1, h2, h3, h4⟩ := h.1 t ht
  exact sampleTerm_clean_fin n _ _ _ h1 h2 h3 h4

/-- `x^2 y + x y^2 + y^2` -/
def cloF : Poly Rational := [⟨⟨1, 1⟩, [2, 1]⟩, ⟨⟨1, 1⟩, [1, 2]⟩, ⟨⟨1, 1⟩, [0, 2]⟩]
/-- `x y - 1` -/
def cloG₁ : Poly Rational := [⟨⟨1, 1⟩, [1, 1]⟩, ⟨⟨-1, 1⟩, []⟩]
/-- `y^2 - 1` -/
def cloG₂ : Poly Rational := [⟨⟨1, 1⟩, [0, 2]⟩, ⟨⟨-1, 1⟩, []⟩]

theorem clo_clean : sampleOk 2 cloF ∧ sampleOk 2 cloG₁ ∧ sampleOk 2 cloG₂ := by decide
end

/-! ## C34 sort_terms -/

/-- C34. `sort_terms` permutes the terms into strictly increasing order. -/
theorem C34_sort_terms (hO : Implements O m) (p : Poly F) (hp : Poly.Clean (Fin n) p) :
    Spec (· = .overflowU8) (Computer.sortTerms O p) (fun r => r.Perm p ∧
      (r.Pairwise fun s t => m.toSyn (s.mdeg.toF (Fin n)) < m.toSyn (t.mdeg.toF (Fin n))) ∧
      Poly.den (Fin n) r = Poly.den (Fin n) p) := by
  refine (sortTerms_spec (hO.lawful (E := (· = .overflowU8)) rfl) hp in_true).imp fun r hr => ?_
  refine ⟨hr.1, ?_, Poly.den_perm hr.1⟩
  have hc := hp.perm hr.1.symm
  have hnd : r.Pairwise fun s t => s.mdeg ≠ t.mdeg := List.pairwise_map.mp hc.nodup
  refine List.Pairwise.imp_of_mem ?_ (hr.2.and hnd)
  intro s t hs ht hst
  refine lt_of_le_of_ne hst.1 fun h => hst.2 ?_
  exact MDeg.toF_inj (hc.terms s hs).mdeg (hc.terms t ht).mdeg (hc.terms s hs).vars
    (hc.terms t ht).vars (m.toSyn.injective h)

example : Computer.sortTerms (OrdKind.lex.order .debug) cloF =
    .ok [⟨⟨1, 1⟩, [0, 2]⟩, ⟨⟨1, 1⟩, [1, 2]⟩, ⟨⟨1, 1⟩, [2, 1]⟩] := by decide

/-! ## C35 leading_term, leading_coef -/

/-- C35. -/
theorem C35_leading_term (hO : Implements O m) (p : Poly F) (hp : Poly.Clean (Fin n) p) :
    Spec (· = .overflowU8) (Computer.leadingTerm O p) (fun o =>
      (o = none ↔ Poly.den (Fin n) p = 0) ∧
      ∀ t, o = some t → t ∈ p ∧
        (∀ u ∈ p, u ≠ t → m.toSyn (u.mdeg.toF (Fin n)) < m.toSyn (t.mdeg.toF (Fin n))) ∧
        t.mdeg.toF (Fin n) = m.degree (Poly.den (Fin n) p) ∧
        val t.coef = m.leadingCoeff (Poly.den (Fin n) p)) ∧
    Computer.leadingCoef O p = (do pure ((← Computer.leadingTerm O p).map (·.coef))) := by
  refine ⟨(leadingTerm_spec (hO.lawful (E := (· = .overflowU8)) rfl) hp in_true).imp ?_, rfl⟩
  rintro (_ | t) h
  · refine ⟨⟨fun _ => ?_, fun _ => rfl⟩, by simp⟩
    rw [h]; rfl
  · obtain ⟨hm, hc, hd, hl⟩ := h
    refine ⟨⟨by simp, fun h0 => ?_⟩, ?_⟩
    · rw [Poly.den_eq_zero_iff hp] at h0
      rw [h0] at hm; simp at hm
    · rintro t' ht'
      cases ht'
      refine ⟨hm, fun u hu hne => ?_, hd, hl⟩
      rw [hd]
      refine lt_of_le_of_ne (m.le_degree ((Poly.mem_support_den hp).mpr ⟨u, hu, rfl⟩)) fun he => hne ?_
      have he := m.toSyn.injective he
      rw [← hd] at he
      exact List.inj_on_of_nodup_map hp.nodup hu hm
        (MDeg.toF_inj (hp.terms u hu).mdeg hc.mdeg (hp.terms u hu).vars hc.vars he)

example : Computer.leadingTerm (OrdKind.lex.order .debug) cloF = .ok (some ⟨⟨1, 1⟩, [2, 1]⟩) ∧
    Computer.leadingTerm (OrdKind.revLex.order .debug) cloF = .ok (some ⟨⟨1, 1⟩, [1, 2]⟩) := by
  decide

/-! ## C36–C39 division with remainder -/

/-- The sum `q_1 g_1 + … + q_k g_k`. -/
noncomputable def combination (n : ℕ) (qs gs : List (Poly F)) : MvPolynomial (Fin n) K :=
  (List.zipWith (fun q g => Poly.den (Fin n) q * Poly.den (Fin n) g) qs gs).sum

theorem zip_pairs {α β γ : Type} (L : List (α × β)) (f : β → α → γ) :
    List.zipWith f (L.map (·.2)) (L.map (·.1)) = L.map fun y => f y.2 y.1 := by
  induction L with
  | nil => rfl
  | cons x L ih => simp [ih]

/-- C36. `divide` returns as many quotients as divisors, everything canonical, and
`f = q_1 g_1 + … + q_k g_k + r`. -/
theorem C36_divide_identity (hO : Implements O m) (f : Poly F) (divs : List (Poly F))
    (hf : Poly.Clean (Fin n) f) (hd : ∀ g ∈ divs, Poly.Clean (Fin n) g) :
    Spec (PolyPanic F) (Computer.divide O f divs) (fun (r, qs) =>
      Poly.Clean (Fin n) r ∧ qs.length = divs.length ∧ (∀ q ∈ qs, Poly.Clean (Fin n) q) ∧
      Poly.den (Fin n) f = combination n qs divs + Poly.den (Fin n) r) := by
  refine (divide_spec hO.poly polyPanic_allowed hf in_true fun g h => ⟨hd g h, in_true⟩).imp ?_
  rintro ⟨r, qs⟩ ⟨h1, _, L, hL1, hL2, hL3, hL4⟩
  simp only at hL2 hL4
  refine ⟨h1, by rw [← hL1, ← hL2]; simp, fun q hq => ?_, ?_⟩
  · rw [← hL2] at hq
    obtain ⟨y, hy, rfl⟩ := List.mem_map.mp hq
    exact (hL3 y hy).1
  · rw [combination, ← hL1, ← hL2, zip_pairs]; exact hL4

/-- C37. No monomial of the remainder is divisible by the leading monomial of a nonzero divisor. -/
theorem C37_remainder_reduced (hO : Implements O m) (f : Poly F) (divs : List (Poly F))
    (hf : Poly.Clean (Fin n) f) (hd : ∀ g ∈ divs, Poly.Clean (Fin n) g) :
    Spec (PolyPanic F) (Computer.divide O f divs) (fun (r, _) =>
      ∀ e ∈ (Poly.den (Fin n) r).support, ∀ g ∈ divs, Poly.den (Fin n) g ≠ 0 →
        ¬ m.degree (Poly.den (Fin n) g) ≤ e) := by
  refine (divide_spec hO.poly polyPanic_allowed hf in_true fun g h => ⟨hd g h, in_true⟩).imp ?_
  rintro ⟨r, qs⟩ ⟨_, h2, _⟩ e he g hg hne
  exact (h2 e he).2 g hg fun h => hne (by rw [h]; rfl)

/-- C38. The degrees of the products `q_i g_i` and of the remainder are at most that of `f`. -/
theorem C38_degree_bound (hO : Implements O m) (f : Poly F) (divs : List (Poly F))
    (hf : Poly.Clean (Fin n) f) (hd : ∀ g ∈ divs, Poly.Clean (Fin n) g) :
    Spec (PolyPanic F) (Computer.divide O f divs) (fun (r, qs) =>
      (∀ x ∈ qs.zip divs, m.toSyn (m.degree (Poly.den (Fin n) x.1 * Poly.den (Fin n) x.2)) ≤
        m.toSyn (m.degree (Poly.den (Fin n) f))) ∧
      m.toSyn (m.degree (Poly.den (Fin n) r)) ≤ m.toSyn (m.degree (Poly.den (Fin n) f))) := by
  refine (divide_spec hO.poly polyPanic_allowed hf in_true fun g h => ⟨hd g h, in_true⟩).imp ?_
  rintro ⟨r, qs⟩ ⟨_, h2, L, hL1, hL2, hL3, _⟩
  refine ⟨fun x hx => ?_, degree_le_of_support m fun e he => (h2 e he).1⟩
  simp only at hL2
  rw [← hL1, ← hL2, List.zip, zip_pairs] at hx
  obtain ⟨y, hy, rfl⟩ := List.mem_map.mp hx
  exact (hL3 y hy).2

/-- C39. `divide` terminates on all inputs, and the only panics are overflows. -/
theorem C39_divide_terminates (hO : Implements O m) (f : Poly F) (divs : List (Poly F))
    (hf : Poly.Clean (Fin n) f) (hd : ∀ g ∈ divs, Poly.Clean (Fin n) g) :
    Computer.divide O f divs ≠ .diverge ∧
    ∀ p, Computer.divide O f divs = .panic p → PolyPanic F p := by
  have := spec_iff.mp (C36_divide_identity hO f divs hf hd)
  exact ⟨this.1, this.2.2⟩

/-- C39. Over an exact field, with a degree-compatible order and total degrees at most 255, `divide`
returns. -/
theorem C39_divide_total (k : OrdKind) (hk : k.graded = true) (K : Type) [Field K] [DecidableEq K]
    (f : Poly K) (divs : List (Poly K)) :
    letI := exactField .debug K
    letI := exactLawful K
    ∀ (_ : Poly.Clean (Fin n) f) (_ : ∀ g ∈ divs, Poly.Clean (Fin n) g)
      (_ : ∀ t ∈ f, t.mdeg.sum ≤ 255) (_ : ∀ g ∈ divs, ∀ t ∈ g, t.mdeg.sum ≤ 255),
      ∃ x, Computer.divide (k.order .debug) f divs = .ok x := by
  let _ := exactField .debug K
  let _ := exactLawful K
  intro hf hd hfd hdd
  have hin : ∀ p : Poly K, Poly.Clean (Fin n) p → (∀ t ∈ p, t.mdeg.sum ≤ 255) →
      Poly.In (fun e : Fin n →₀ ℕ => ∑ s, e s ≤ 255) p := by
    intro p hp h t ht
    have hl := (MDeg.inVars_fin (hp.terms t ht).mdeg).mp (hp.terms t ht).vars
    rw [← tot_extend, extend_toF hl, ← sum_eq_tot hl]
    exact h t ht
  have := divide_spec (E := fun _ => False) (OrdKind.lawful_graded k hk n) (fun p hp => hp) hf
    (hin f hf hfd) fun g hg => ⟨hd g hg, hin g (hd g hg) (hdd g hg)⟩
  obtain ⟨x, hx, _⟩ := this.total
  exact ⟨x, hx⟩

/-- The example of Cox, Little and O'Shea: hypotheses and result. -/
example : letI := Rational.field .debug
    Implements (OrdKind.lex.order .debug) (OrdKind.lex.mathlib 2) ∧
    (sampleOk 2 cloF ∧ sampleOk 2 cloG₁ ∧ sampleOk 2 cloG₂) ∧
    Computer.divide (OrdKind.lex.order .debug) cloF [cloG₁, cloG₂] =
      .ok ([⟨⟨1, 1⟩, [1]⟩, ⟨⟨1, 1⟩, [0, 1]⟩, ⟨⟨1, 1⟩, []⟩],
        [[⟨⟨1, 1⟩, [1]⟩, ⟨⟨1, 1⟩, [0, 1]⟩], [⟨⟨1, 1⟩, []⟩]]) := by
  refine ⟨OrdKind.implements _ _, clo_clean, ?_⟩
  exact loop_eq_of_iter (n := 10) (by decide) (by simp)

/-- Zero divisors are skipped, and an empty list of divisors gives `f` back. -/
example : letI := Rational.field .debug
    Computer.divide (OrdKind.grLex.order .debug) cloG₁ [[], cloG₂] = .ok (cloG₁, [[], []]) ∧
    Computer.divide (OrdKind.grLex.order .debug) cloG₁ [] = .ok (cloG₁, []) :=
  ⟨loop_eq_of_iter (n := 10) (by decide) (by simp), loop_eq_of_iter (n := 10) (by decide) (by simp)⟩

/-! ## C40 monic_lcm -/

theorem monomial_dvd_iff {σ : Type} {a : σ →₀ ℕ} {c : K} (hc : c ≠ 0) {p : MvPolynomial σ K} :
    monomial a c ∣ p ↔ ∀ e ∈ p.support, a ≤ e := by
  have h1 : monomial a c ∣ p ↔ p ∈ Ideal.span ((fun s => monomial s (1 : K)) '' {a}) := by
    rw [Set.image_singleton, Ideal.mem_span_singleton]
    have hassoc : monomial a c = C c * monomial a (1 : K) := by rw [C_mul_monomial, mul_one]
    rw [hassoc]
    exact (IsUnit.map C (isUnit_iff_ne_zero.mpr hc)).mul_left_dvd
  rw [h1, mem_ideal_span_monomial_image]
  simp

/-- C40. The result is a canonical term with coefficient one, is a multiple of both terms, and
divides every common multiple of them. -/
theorem C40_monic_lcm (s t : Term F) (hs : s.Clean ℕ) (ht : t.Clean ℕ) :
    (Computer.monicLcm s t).Clean ℕ ∧ val (Computer.monicLcm s t).coef = (1 : K) ∧
    s.den ℕ ∣ (Computer.monicLcm s t).den ℕ ∧ t.den ℕ ∣ (Computer.monicLcm s t).den ℕ ∧
    ∀ p : MvPolynomial ℕ K, s.den ℕ ∣ p → t.den ℕ ∣ p → (Computer.monicLcm s t).den ℕ ∣ p := by
  obtain ⟨h1, h2, h3⟩ := monicLcm_spec hs ht
  refine ⟨h1, h2, ?_, ?_, ?_⟩
  · refine (monomial_dvd_iff hs.ne).mpr fun e he => ?_
    have he : e = (Computer.monicLcm s t).mdeg.toF ℕ := by
      simpa using support_monomial_subset he
    rw [he, h3]; exact le_sup_left
  · refine (monomial_dvd_iff ht.ne).mpr fun e he => ?_
    have he : e = (Computer.monicLcm s t).mdeg.toF ℕ := by
      simpa using support_monomial_subset he
    rw [he, h3]; exact le_sup_right
  · intro p hsp htp
    have a1 := (monomial_dvd_iff hs.ne).mp hsp
    have a2 := (monomial_dvd_iff ht.ne).mp htp
    refine (monomial_dvd_iff h1.ne).mpr fun e he => ?_
    rw [h3]; exact sup_le (a1 e he) (a2 e he)

/-- C40. The lcm with the zero term is the zero term. -/
theorem C40_monic_lcm_zero (s t : Term F) (hs : s.Ok ℕ) (ht : t.Ok ℕ)
    (h : s.den ℕ = 0 ∨ t.den ℕ = 0) : Computer.monicLcm s t = Term.zero := by
  unfold Computer.monicLcm
  rw [Term.den_eq_zero, Term.den_eq_zero, ← Term.isZero_iff hs.wf, ← Term.isZero_iff ht.wf] at h
  rw [if_pos (by simpa using h)]

example : letI := Rational.field .debug
    Computer.monicLcm (⟨⟨3, 2⟩, [2, 1]⟩ : Term Rational) ⟨⟨5, 1⟩, [1, 0, 4]⟩ =
      ⟨⟨1, 1⟩, [2, 1, 4]⟩ := by decide

/-! ## C41 try_reduce -/

/-- C41. With `M` the lcm of the leading monomials, `try_reduce(f, g)` denotes
`(M / LT f) f - (M / LT g) g`, and everything in it is below `M`. -/
theorem C41_try_reduce (hO : Implements O m) (f g : Poly F) (hf : Poly.Clean (Fin n) f)
    (hg : Poly.Clean (Fin n) g) :
    let f' := Poly.den (Fin n) f
    let g' := Poly.den (Fin n) g
    let M := m.degree f' ⊔ m.degree g'
    Spec (PolyPanic F) (Computer.tryReduce O f g) (fun o =>
      (o = none ↔ f' = 0 ∨ g' = 0) ∧
      ∀ s, o = some s → Poly.Clean (Fin n) s ∧
        Poly.den (Fin n) s =
          monomial (M - m.degree f') (m.leadingCoeff f')⁻¹ * f' -
          monomial (M - m.degree g') (m.leadingCoeff g')⁻¹ * g' ∧
        ∀ e ∈ (Poly.den (Fin n) s).support, m.toSyn e < m.toSyn M) := by
  refine (tryReduce_spec hO.poly polyPanic_allowed hf in_true hg in_true fun _ _ => trivial).imp ?_
  rw [Poly.den_eq_zero_iff hf, Poly.den_eq_zero_iff hg]
  rintro (_ | s) h
  · exact ⟨⟨fun _ => h, fun _ => rfl⟩, by simp⟩
  · refine ⟨⟨by simp, fun h0 => ?_⟩, ?_⟩
    · rcases h0 with h0 | h0
      · exact absurd h0 h.1
      · exact absurd h0 h.2.1
    · rintro s' hs'
      cases hs'
      exact h.2.2

/-- C41. Up to a nonzero scalar this is the S-polynomial of Mathlib. -/
theorem C41_is_sPolynomial (f g : MvPolynomial (Fin n) K) (hf : f ≠ 0) (hg : g ≠ 0) :
    (m.leadingCoeff f * m.leadingCoeff g) • spair m f g = m.sPolynomial f g := by
  have cf := m.leadingCoeff_ne_zero_iff.mpr hf
  have cg := m.leadingCoeff_ne_zero_iff.mpr hg
  rw [MonomialOrder.sPolynomial_def, spair, smul_sub, ← smul_mul_assoc, ← smul_mul_assoc,
    smul_monomial, smul_monomial]
  congr 3
  · rw [smul_eq_mul]; field_simp
  · rw [smul_eq_mul]; field_simp

example : letI := Rational.field .debug
    Computer.tryReduce (OrdKind.lex.order .debug) cloG₁ cloG₂ =
      .ok (some [⟨⟨-1, 1⟩, [0, 1]⟩, ⟨⟨1, 1⟩, [1]⟩]) ∧
    Computer.tryReduce (OrdKind.lex.order .debug) cloG₁ [] = .ok none := by
  decide

/-! ## C42 buchberger_criterion -/

/-- C42. `buchberger_criterion` decides whether the (nonzero) generators are a Gröbner basis of the
ideal they generate. -/
theorem C42_criterion (hO : Implements O m) (gens : List (Poly F))
    (hg : ∀ g ∈ gens, Poly.Clean (Fin n) g ∧ Poly.den (Fin n) g ≠ 0) :
    Spec (PolyPanic F) (Computer.buchbergerCriterion O gens) (fun b =>
      b = true ↔ ∀ f ∈ Ideal.span (dens (Fin n) gens), f ≠ 0 →
        ∃ g ∈ gens, m.degree (Poly.den (Fin n) g) ≤ m.degree f) := by
  have hok : GenOk (Fin n) gens := fun g h => ⟨(hg g h).1, fun h0 => (hg g h).2 (by rw [h0]; rfl)⟩
  refine (buchbergerCriterion_spec hO.poly polyPanic_allowed hok).imp fun b hb => ?_
  rw [hb]
  constructor
  · intro h f hf hf0
    obtain ⟨_, ⟨g, hgm, rfl⟩, _, hle⟩ := h.2 f hf hf0
    exact ⟨g, hgm, hle⟩
  · intro h
    refine ⟨Ideal.subset_span, fun f hf hf0 => ?_⟩
    obtain ⟨g, hgm, hle⟩ := h f hf hf0
    exact ⟨_, mem_dens hgm, (hg g hgm).2, hle⟩

/-- The hypotheses hold for the generators `x y - 1, y^2 - 1`. -/
theorem clo_gens : letI := Rational.field .debug
    letI := Rational.lawful
    ∀ g ∈ [cloG₁, cloG₂], Poly.Clean (Fin 2) g ∧ Poly.den (Fin 2) g ≠ 0 := by
  let _ := Rational.field .debug
  let _ := Rational.lawful
  intro g hg
  simp only [List.mem_cons, List.not_mem_nil, or_false] at hg
  rcases hg with rfl | rfl
  · refine ⟨clo_clean.2.1.clean, ?_⟩
    rw [Ne, Poly.den_eq_zero_iff clo_clean.2.1.clean]; decide
  · refine ⟨clo_clean.2.2.clean, ?_⟩
    rw [Ne, Poly.den_eq_zero_iff clo_clean.2.2.clean]; decide

/-- They are not a Gröbner basis, and the code says so. -/
example : letI := Rational.field .debug
    Computer.buchbergerCriterion (OrdKind.lex.order .debug) [cloG₁, cloG₂] = .ok false := by
  let _ := Rational.field .debug
  have h1 : Computer.tryReduce (OrdKind.lex.order .debug) cloG₁ cloG₂ =
      .ok (some [⟨⟨-1, 1⟩, [0, 1]⟩, ⟨⟨1, 1⟩, [1]⟩]) := by decide
  have h2 : Computer.divide (OrdKind.lex.order .debug) [⟨⟨-1, 1⟩, [0, 1]⟩, ⟨⟨1, 1⟩, [1]⟩]
      [cloG₁, cloG₂] = .ok ([⟨⟨1, 1⟩, [1]⟩, ⟨⟨-1, 1⟩, [0, 1]⟩], [[], []]) :=
    loop_eq_of_iter (n := 10) (by decide) (by simp)
  have h3 : Computer.pairsIter [cloG₁, cloG₂].length = [(0, 1), (1, 0)] := by decide
  rw [Computer.buchbergerCriterion, h3, Computer.criterionFor]
  simp only [Computer.index, List.getElem?_cons_zero, List.getElem?_cons_succ, bind_ok, h1, h2]
  rfl

/-! ## C43–C47 buchberger_algorithm -/

section
variable (hO : Implements O m) (gens : List (Poly F))
  (hg : ∀ g ∈ gens, Poly.Clean (Fin n) g ∧ Poly.den (Fin n) g ≠ 0)
include hO hg

theorem algorithm_spec (M : K → Prop) (hM1 : M 1)
    (hM : ∀ g ∈ gens, M (m.leadingCoeff (Poly.den (Fin n) g))) :
    Spec (PolyPanic F) (Computer.buchbergerAlgorithm O gens) (fun G => GenOk (Fin n) G ∧
      IsGroebner m (Ideal.span (dens (Fin n) gens)) (dens (Fin n) G) ∧
      (∀ g ∈ G, M (m.leadingCoeff (Poly.den (Fin n) g))) ∧
      LeadsIncomparable m G ∧ IsInterReduced m (dens (Fin n) G)) :=
  buchbergerAlgorithm_spec hO.poly polyPanic_allowed
    (fun g h => ⟨(hg g h).1, fun h0 => (hg g h).2 (by rw [h0]; rfl)⟩) M hM1 hM

/-- C43. The resulting list is canonical and generates the same ideal. -/
theorem C43_ideal : Spec (PolyPanic F) (Computer.buchbergerAlgorithm O gens) (fun G =>
    (∀ g ∈ G, Poly.Clean (Fin n) g ∧ Poly.den (Fin n) g ≠ 0) ∧
    Ideal.span (dens (Fin n) G) = Ideal.span (dens (Fin n) gens)) :=
  (algorithm_spec hO gens hg (fun _ => True) trivial fun _ _ => trivial).imp fun _ h =>
    ⟨fun g hgm => ⟨(h.1 g hgm).1, h.1.den_ne hgm⟩, h.2.1.span_eq⟩

/-- C44. The leading monomial of every nonzero element of the ideal is divisible by the leading
monomial of an element of the resulting list. -/
theorem C44_groebner : Spec (PolyPanic F) (Computer.buchbergerAlgorithm O gens) (fun G =>
    ∀ f ∈ Ideal.span (dens (Fin n) gens), f ≠ 0 →
      ∃ g ∈ G, m.degree (Poly.den (Fin n) g) ≤ m.degree f) :=
  (algorithm_spec hO gens hg (fun _ => True) trivial fun _ _ => trivial).imp fun _ h f hf hf0 => by
    obtain ⟨_, ⟨g, hgm, rfl⟩, _, hle⟩ := h.2.1.2 f hf hf0
    exact ⟨g, hgm, hle⟩

/-- C45. `buchberger_algorithm` terminates, and the only panics are overflows. -/
theorem C45_terminates : Computer.buchbergerAlgorithm O gens ≠ .diverge ∧
    ∀ p, Computer.buchbergerAlgorithm O gens = .panic p → PolyPanic F p := by
  have := spec_iff.mp (C43_ideal hO gens hg)
  exact ⟨this.1, this.2.2⟩

/-- C46, without the claim that every element is monic: no monomial of an element of the resulting
list is divisible by the leading monomial of another element.  (Missing: "every element is monic",
which is false, see `C46_refuted`.) -/
theorem C46_reduced_partial : Spec (PolyPanic F) (Computer.buchbergerAlgorithm O gens) (fun G =>
    ∀ i j (hi : i < G.length) (hj : j < G.length), i ≠ j →
      ∀ e ∈ (Poly.den (Fin n) G[i]).support, ¬ m.degree (Poly.den (Fin n) G[j]) ≤ e) := by
  refine (algorithm_spec hO gens hg (fun _ => True) trivial fun _ _ => trivial).imp fun G h => ?_
  intro i j hi hj hij e he hle
  refine h.2.2.2.2 _ (mem_dens (List.getElem_mem hi)) _ (mem_dens (List.getElem_mem hj)) ?_ e he hle
  intro heq
  have hp := List.pairwise_iff_getElem.mp h.2.2.2.1
  rcases lt_or_gt_of_ne hij with hlt | hgt
  · exact (hp i j hi hj hlt).1 (by rw [heq])
  · exact (hp j i hj hi hgt).1 (by rw [heq])

/-- C46 for monic generators: every element of the result is monic. -/
theorem C46_monic_partial (hmon : ∀ g ∈ gens, m.leadingCoeff (Poly.den (Fin n) g) = 1) :
    Spec (PolyPanic F) (Computer.buchbergerAlgorithm O gens) (fun G =>
      ∀ g ∈ G, m.leadingCoeff (Poly.den (Fin n) g) = 1) :=
  (algorithm_spec hO gens hg (fun c => c = 1) rfl hmon).imp fun _ h => h.2.2.1

/-- C46: in general, the leading coefficients of the result are 1 or those of the generators. -/
theorem C46_coefs_partial : Spec (PolyPanic F) (Computer.buchbergerAlgorithm O gens) (fun G =>
    ∀ g ∈ G, m.leadingCoeff (Poly.den (Fin n) g) = 1 ∨
      ∃ g₀ ∈ gens, m.leadingCoeff (Poly.den (Fin n) g) = m.leadingCoeff (Poly.den (Fin n) g₀)) :=
  (algorithm_spec hO gens hg
    (fun c => c = 1 ∨ ∃ g₀ ∈ gens, c = m.leadingCoeff (Poly.den (Fin n) g₀)) (Or.inl rfl)
    fun g h => Or.inr ⟨g, h, rfl⟩).imp fun _ h => h.2.2.1

end

/-- C47, up to scalars: the results for two generating lists of the same ideal are equal up to order
and nonzero scalar factors.  (Missing: the factors, which the code does not normalise, see
`C47_refuted`.) -/
theorem C47_canonical_partial (hO : Implements O m) (gens₁ gens₂ : List (Poly F))
    (h₁ : ∀ g ∈ gens₁, Poly.Clean (Fin n) g ∧ Poly.den (Fin n) g ≠ 0)
    (h₂ : ∀ g ∈ gens₂, Poly.Clean (Fin n) g ∧ Poly.den (Fin n) g ≠ 0)
    (hI : Ideal.span (dens (Fin n) gens₁) = Ideal.span (dens (Fin n) gens₂))
    (G₁ G₂ : List (Poly F)) (hr₁ : Computer.buchbergerAlgorithm O gens₁ = .ok G₁)
    (hr₂ : Computer.buchbergerAlgorithm O gens₂ = .ok G₂) :
    (fun p => (m.leadingCoeff p)⁻¹ • p) '' dens (Fin n) G₁ =
      (fun p => (m.leadingCoeff p)⁻¹ • p) '' dens (Fin n) G₂ := by
  have s₁ := (algorithm_spec hO gens₁ h₁ (fun _ => True) trivial fun _ _ => trivial).of_ok hr₁
  have s₂ := (algorithm_spec hO gens₂ h₂ (fun _ => True) trivial fun _ _ => trivial).of_ok hr₂
  rw [← hI] at s₂
  have z : ∀ G : List (Poly F), GenOk (Fin n) G → (0 : MvPolynomial (Fin n) K) ∉ dens (Fin n) G := by
    rintro G hG ⟨g, hg, h0⟩
    exact hG.den_ne hg h0.symm
  apply Set.Subset.antisymm
  · rintro _ ⟨g, hg, rfl⟩
    obtain ⟨h, hh, heq⟩ := IsGroebner.reduced_unique s₁.2.1 s₂.2.1 (z _ s₁.1) s₁.2.2.2.2
      s₂.2.2.2.2 hg
    exact ⟨h, hh, heq.symm⟩
  · rintro _ ⟨g, hg, rfl⟩
    obtain ⟨h, hh, heq⟩ := IsGroebner.reduced_unique s₂.2.1 s₁.2.1 (z _ s₂.1) s₂.2.2.2.2
      s₁.2.2.2.2 hg
    exact ⟨h, hh, heq.symm⟩

/-- C47 for monic generators: the results have exactly the same elements. -/
theorem C47_monic_partial (hO : Implements O m) (gens₁ gens₂ : List (Poly F))
    (h₁ : ∀ g ∈ gens₁, Poly.Clean (Fin n) g ∧ Poly.den (Fin n) g ≠ 0)
    (h₂ : ∀ g ∈ gens₂, Poly.Clean (Fin n) g ∧ Poly.den (Fin n) g ≠ 0)
    (m₁ : ∀ g ∈ gens₁, m.leadingCoeff (Poly.den (Fin n) g) = 1)
    (m₂ : ∀ g ∈ gens₂, m.leadingCoeff (Poly.den (Fin n) g) = 1)
    (hI : Ideal.span (dens (Fin n) gens₁) = Ideal.span (dens (Fin n) gens₂))
    (G₁ G₂ : List (Poly F)) (hr₁ : Computer.buchbergerAlgorithm O gens₁ = .ok G₁)
    (hr₂ : Computer.buchbergerAlgorithm O gens₂ = .ok G₂) :
    (dens (Fin n) G₁ : Set (MvPolynomial (Fin n) K)) = dens (Fin n) G₂ ∧ G₁.length = G₂.length := by
  have k₁ := (C46_monic_partial hO gens₁ h₁ m₁).of_ok hr₁
  have k₂ := (C46_monic_partial hO gens₂ h₂ m₂).of_ok hr₂
  have key := C47_canonical_partial hO gens₁ gens₂ h₁ h₂ hI G₁ G₂ hr₁ hr₂
  have simp1 : ∀ G : List (Poly F), (∀ g ∈ G, m.leadingCoeff (Poly.den (Fin n) g) = 1) →
      (fun p => (m.leadingCoeff p)⁻¹ • p) '' dens (Fin n) G =
        (dens (Fin n) G : Set (MvPolynomial (Fin n) K)) := by
    intro G hG
    have : Set.EqOn (fun p => (m.leadingCoeff p)⁻¹ • p) id
        (dens (Fin n) G : Set (MvPolynomial (Fin n) K)) := by
      rintro _ ⟨g, hg, rfl⟩
      simp only [hG g hg, inv_one, one_smul, id]
    rw [this.image_eq, Set.image_id]
  rw [simp1 G₁ k₁, simp1 G₂ k₂] at key
  refine ⟨key, ?_⟩
  have s₁ := (algorithm_spec hO gens₁ h₁ (fun _ => True) trivial fun _ _ => trivial).of_ok hr₁
  have s₂ := (algorithm_spec hO gens₂ h₂ (fun _ => True) trivial fun _ _ => trivial).of_ok hr₂
  have nd : ∀ G : List (Poly F), LeadsIncomparable m G → (G.map (Poly.den (Fin n))).Nodup := by
    intro G hG
    rw [List.Nodup, List.pairwise_map]
    exact hG.imp fun h heq => h.1 (by rw [heq])
  have hperm : (G₁.map (Poly.den (Fin n))).Perm (G₂.map (Poly.den (Fin n)) :
      List (MvPolynomial (Fin n) K)) := by
    rw [List.perm_ext_iff_of_nodup (nd _ s₁.2.2.2.1) (nd _ s₂.2.2.2.1)]
    intro p
    have : p ∈ (dens (Fin n) G₁ : Set (MvPolynomial (Fin n) K)) ↔ p ∈ dens (Fin n) G₂ := by rw [key]
    simpa [dens, eq_comm] using this
  simpa using hperm.length_eq

/-- The hypotheses of C43–C47 hold for `x y - 1, y^2 - 1`, with all four orders. -/
example (k : OrdKind) : letI := Rational.field .debug
    letI := Rational.lawful
    Implements (k.order .debug) (k.mathlib 2) ∧
    ∀ g ∈ [cloG₁, cloG₂], Poly.Clean (Fin 2) g ∧ Poly.den (Fin 2) g ≠ 0 :=
  ⟨OrdKind.implements k 2, clo_gens⟩

/-- `2 x` -/
def twoX : Poly Rational := [⟨⟨2, 1⟩, [1]⟩]
/-- `x` -/
def oneX : Poly Rational := [⟨⟨1, 1⟩, [1]⟩]

theorem algorithm_single (b : Build) (p : Poly Rational) : letI := Rational.field b
    Computer.buchbergerAlgorithm (OrdKind.lex.order b) [p] = .ok [p] := by
  let _ := Rational.field b
  unfold Computer.buchbergerAlgorithm
  have h1 : Computer.buchbergerExtend (OrdKind.lex.order b) [p] = .ok [p] :=
    loop_eq_of_iter (n := 3) (by rfl) (by simp)
  have h2 : Computer.buchbergerMinimize (OrdKind.lex.order b) [p] = .ok [p] :=
    loop_eq_of_iter (n := 2) (by rfl) (by simp)
  have h3 : Computer.buchbergerReduce (OrdKind.lex.order b) [p] = .ok [p] :=
    loop_eq_of_iter (n := 2) (by rfl) (by simp)
  rw [h1]; change (Computer.buchbergerMinimize _ [p] >>= _) = _
  rw [h2]; exact h3

/-- C46 is false as documented ("reduced Gröbner basis"): `buchberger_algorithm(&mut vec![2x])`
leaves `2x`, which is not monic; the original generators are never normalised. -/
theorem C46_refuted : letI := Rational.field .debug
    sampleOk 1 twoX ∧
    Computer.buchbergerAlgorithm (OrdKind.lex.order .debug) [twoX] = .ok [twoX] ∧
    Computer.leadingCoef (OrdKind.lex.order .debug) twoX = .ok (some ⟨2, 1⟩) :=
  ⟨by decide, algorithm_single _ _, by decide⟩

/-- C47 is false as stated: `[2x]` and `[x]` generate the same ideal but give different bases. -/
theorem C47_refuted : letI := Rational.field .debug
    letI := Rational.lawful
    Poly.Clean (Fin 1) twoX ∧ Poly.Clean (Fin 1) oneX ∧
    Ideal.span (dens (Fin 1) [twoX]) = Ideal.span (dens (Fin 1) [oneX]) ∧
    Computer.buchbergerAlgorithm (OrdKind.lex.order .debug) [twoX] = .ok [twoX] ∧
    Computer.buchbergerAlgorithm (OrdKind.lex.order .debug) [oneX] = .ok [oneX] ∧
    Poly.den (Fin 1) twoX ≠ Poly.den (Fin 1) oneX := by
  let _ := Rational.field .debug
  let _ := Rational.lawful
  have hden : Poly.den (Fin 1) twoX = C 2 * Poly.den (Fin 1) oneX := by
    simp only [twoX, oneX, Poly.den_cons, Poly.den_nil, add_zero]
    unfold Term.den
    rw [C_mul_monomial]
    congr 1
    change ((2 : Int) : ℚ) / (1 : Int) = 2 * (((1 : Int) : ℚ) / (1 : Int))
    norm_num
  have hone : Poly.den (Fin 1) oneX ≠ 0 := by
    have hc : Poly.Clean (Fin 1) oneX := sampleOk.clean (by decide)
    rw [Ne, Poly.den_eq_zero_iff hc]; decide
  have hs : ∀ p : Poly Rational, dens (Fin 1) [p] = {Poly.den (Fin 1) p} := by
    intro p; ext q; simp [dens]
  refine ⟨sampleOk.clean (by decide), sampleOk.clean (by decide), ?_, algorithm_single _ _,
    algorithm_single _ _, ?_⟩
  · rw [hs, hs, hden]
    exact Ideal.span_singleton_mul_left_unit
      (IsUnit.map C (isUnit_iff_ne_zero.mpr two_ne_zero)) _
  · rw [hden]
    intro h
    have : (C (2 : ℚ) : MvPolynomial (Fin 1) ℚ) = 1 := mul_right_cancel₀ hone (by rw [h, one_mul])
    rw [← C_1, C_inj] at this
    norm_num at this

/-! ## C48 remainders decide ideal membership -/

/-- `G` is a Gröbner basis of the ideal it generates: canonical, and the leading monomial of every
nonzero element of the ideal is divisible by the leading monomial of a nonzero element of `G`. -/
def GroebnerList (m : MonomialOrder (Fin n)) (G : List (Poly F)) : Prop :=
  (∀ g ∈ G, Poly.Clean (Fin n) g) ∧
  ∀ f ∈ Ideal.span (dens (Fin n) G), f ≠ 0 →
    ∃ g ∈ G, Poly.den (Fin n) g ≠ 0 ∧ m.degree (Poly.den (Fin n) g) ≤ m.degree f

theorem GroebnerList.isGroebner {G : List (Poly F)} (h : GroebnerList m G) :
    IsGroebner m (Ideal.span (dens (Fin n) G)) (dens (Fin n) G) := by
  refine ⟨Ideal.subset_span, fun f hf hf0 => ?_⟩
  obtain ⟨g, hg, h0, hle⟩ := h.2 f hf hf0
  exact ⟨_, mem_dens hg, h0, hle⟩

/-- C48. The remainder modulo a Gröbner basis is zero exactly for the elements of the ideal. -/
theorem C48_membership (hO : Implements O m) (f : Poly F) (G : List (Poly F))
    (hf : Poly.Clean (Fin n) f) (hG : GroebnerList m G) :
    Spec (PolyPanic F) (Computer.divide O f G) (fun (r, _) =>
      r.isZero = true ↔ Poly.den (Fin n) f ∈ Ideal.span (dens (Fin n) G)) := by
  refine (divide_gens hO.poly polyPanic_allowed hG.1 hf).imp ?_
  rintro ⟨r, qs⟩ ⟨hr, hred, hspan, _⟩
  simp only at hr hred hspan ⊢
  rw [Poly.isZero_iff hr]
  constructor
  · intro h0; rwa [h0, sub_zero] at hspan
  · intro hmem
    have hrm : Poly.den (Fin n) r ∈ Ideal.span (dens (Fin n) G) := by
      have := Ideal.sub_mem _ hmem hspan
      rwa [sub_sub_cancel] at this
    exact hG.isGroebner.eq_zero hrm fun e he => (hred e he).2

/-- C48. The remainder does not depend on the order of the divisors, nor on which Gröbner basis of
the ideal is used. -/
theorem C48_unique (hO : Implements O m) (f : Poly F) (G H : List (Poly F))
    (hf : Poly.Clean (Fin n) f) (hG : GroebnerList m G) (hH : GroebnerList m H)
    (hI : G.Perm H ∨ Ideal.span (dens (Fin n) G) = Ideal.span (dens (Fin n) H))
    (r₁ r₂ : Poly F) (qs₁ qs₂ : List (Poly F)) (h₁ : Computer.divide O f G = .ok (r₁, qs₁))
    (h₂ : Computer.divide O f H = .ok (r₂, qs₂)) :
    Poly.den (Fin n) r₁ = Poly.den (Fin n) r₂ ∧ SameTerms r₁ r₂ := by
  have hI : Ideal.span (dens (Fin n) G) = Ideal.span (dens (Fin n) H) := by
    rcases hI with h | h
    · congr 1; ext p; simp [dens, h.mem_iff]
    · exact h
  have s₁ := (divide_gens hO.poly polyPanic_allowed hG.1 hf).of_ok h₁
  have s₂ := (divide_gens hO.poly polyPanic_allowed hH.1 hf).of_ok h₂
  simp only at s₁ s₂
  have hH' := hH.isGroebner
  rw [← hI] at hH'
  have hden : Poly.den (Fin n) r₁ = Poly.den (Fin n) r₂ := by
    refine IsGroebner.unique hG.isGroebner hH' ?_ (fun e he => (s₁.2.1 e he).2)
      fun e he => (s₂.2.1 e he).2
    have h := s₂.2.2.1
    rw [← hI] at h
    have := Ideal.sub_mem _ h s₁.2.2.1
    rwa [sub_sub_sub_cancel_left] at this
  exact ⟨hden, Poly.den_inj s₁.1 s₂.1 hden⟩

/-- A single polynomial is a Gröbner basis: the hypotheses are met. -/
example : letI := Rational.field .debug
    letI := Rational.lawful
    GroebnerList (OrdKind.lex.mathlib 2) [cloG₁] := by
  let _ := Rational.field .debug
  let _ := Rational.lawful
  have hc : Poly.Clean (Fin 2) cloG₁ := clo_clean.2.1.clean
  refine ⟨by simpa using hc, fun f hf hf0 => ⟨cloG₁, by simp, ?_, ?_⟩⟩
  · rw [Ne, Poly.den_eq_zero_iff hc]; decide
  · have hs : dens (Fin 2) [cloG₁] = {Poly.den (Fin 2) cloG₁} := by ext q; simp [dens]
    rw [hs, Ideal.mem_span_singleton] at hf
    obtain ⟨q, rfl⟩ := hf
    rw [MonomialOrder.degree_mul (left_ne_zero_of_mul hf0) (right_ne_zero_of_mul hf0)]
    exact le_self_add

/-! ## C49 zero among the generators -/

/-- C49, for nonzero generators: neither routine panics except by overflow.  (Missing: lists
containing the zero polynomial, for which it is false, see `C49_refuted`.) -/
theorem C49_no_panic_partial (hO : Implements O m) (gens : List (Poly F))
    (hg : ∀ g ∈ gens, Poly.Clean (Fin n) g ∧ Poly.den (Fin n) g ≠ 0) (p : Panic) :
    (Computer.buchbergerAlgorithm O gens = .panic p → PolyPanic F p) ∧
    (Computer.buchbergerCriterion O gens = .panic p → PolyPanic F p) :=
  ⟨(C45_terminates hO gens hg).2 p, fun h => (spec_iff.mp (C42_criterion hO gens hg)).2.2 p h⟩

/-- C49 is false: with a zero polynomial among the generators both routines panic. -/
theorem C49_refuted : letI := Rational.field .debug
    Computer.buchbergerAlgorithm (OrdKind.lex.order .debug) [oneX, Poly.zero] = .panic .unwrapNone ∧
    Computer.buchbergerAlgorithm (OrdKind.lex.order .debug) [Poly.zero, oneX] = .panic .unwrapNone ∧
    Computer.buchbergerCriterion (OrdKind.lex.order .debug) [oneX, Poly.zero] =
      .panic (.explicit "should not happen. yeah i know, joseph, 'parse don't validate'") := by
  let _ := Rational.field .debug
  have h1 : Computer.buchbergerExtend (OrdKind.lex.order .debug) [oneX, Poly.zero] =
      .panic .unwrapNone := loop_eq_of_iter (n := 3) (by decide) (by simp)
  have h2 : Computer.buchbergerExtend (OrdKind.lex.order .debug) [Poly.zero, oneX] =
      .panic .unwrapNone := loop_eq_of_iter (n := 3) (by decide) (by simp)
  refine ⟨?_, ?_, ?_⟩
  · unfold Computer.buchbergerAlgorithm; rw [h1]; rfl
  · unfold Computer.buchbergerAlgorithm; rw [h2]; rfl
  · rfl

end Verif
