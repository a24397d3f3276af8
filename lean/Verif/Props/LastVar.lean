import Verif.Props.Graded
import Verif.Props.IdealOps

/-!
# Property C197: `GRevLex` and the last variable

For homogeneous generators a basis for `GRevLex` gives the quotient of the ideal by the last variable
without another computation: divide the elements that are divisible by it.
-/

namespace Verif
open Res MvPolynomial LawfulRField ExtraVar

/-! ### The programs -/

section
variable {F : Type} [RField F]

/-- `g / x_k` if `x_k` divides `g`, else `g`. -/
def divideByVar (O : MOrder) (k : ℕ) (g : Poly F) : Res (Poly F) := do
  let (r, qs) ← Computer.divide O g [Poly.var k 1]
  if r.isZero then
    match qs[0]? with
    | none => .panic .indexOutOfBounds
    | some q => pure q
  else pure g

/-- The elements of a basis for `GRevLex`, divided by `x_k` where possible. -/
def quotientLast (k : ℕ) (gens : List (Poly F)) : Res (List (Poly F)) := do
  let G ← Computer.buchbergerAlgorithm (OrdKind.gRevLex.order .debug) gens
  G.mapM fun g => divideByVar (OrdKind.gRevLex.order .debug) k g

end

section
variable {F : Type} [RField F] {K : Type} [Field K] [LawfulRField F K] {k : ℕ}

theorem last_dvd {p : MvPolynomial (Fin (k + 1)) K} (h : ∀ e ∈ p.support, e (Fin.last k) ≠ 0) :
    last ∣ p := by
  rw [p.as_sum]
  refine Finset.dvd_sum fun e he => ?_
  unfold last
  exact X_dvd_monomial.mpr (Or.inr (h e he))

/-- With `GRevLex` the leading monomial of a homogeneous polynomial has the smallest power of the last
variable. -/
theorem gRevLex_last {p : MvPolynomial (Fin (k + 1)) K} {d : ℕ}
    (hp : IsWeightedHomogeneous (fun _ => 1 : Fin (k + 1) → ℕ) p d) {e : Fin (k + 1) →₀ ℕ}
    (he : e ∈ p.support) :
    (OrdKind.gRevLex.mathlib (k + 1)).degree p (Fin.last k) ≤ e (Fin.last k) := by
  have hp0 : p ≠ 0 := by rintro rfl; simp at he
  have hD := (OrdKind.gRevLex.mathlib (k + 1)).degree_mem_support hp0
  have htot : ∀ a ∈ p.support, tot (k + 1) (extend a) = d := by
    intro a ha
    have := hp (mem_support_iff.mp ha)
    rw [Finsupp.weight_eq_sum] at this
    rw [← this]
    unfold tot
    rw [← Fin.sum_univ_eq_sum_range]
    refine Finset.sum_congr rfl fun i _ => ?_
    have : i.val < k + 1 := i.2
    simp [extend, this]
  have eq : ∀ a : Fin (k + 1) →₀ ℕ, extend a k = a (Fin.last k) := fun a => by
    simp [extend, Fin.last]
  rcases ((OrdKind.gRevLex.mathlib (k + 1)).le_degree he).lt_or_eq with h | h
  · rw [OrdKind.mathlib_lt] at h
    rcases h with h | ⟨-, j, hj, hlt⟩
    · rw [htot _ he, htot _ hD] at h
      exact absurd h (lt_irrefl _)
    · rw [← eq, ← eq]
      rcases lt_trichotomy j k with h | rfl | h
      · exact (hj k h).le
      · exact hlt.le
      · have : extend e j = 0 := by
          unfold extend; rw [dif_neg (by omega)]
        omega
  · rw [(OrdKind.gRevLex.mathlib (k + 1)).toSyn.injective h]

/-- What the division by the last variable makes of an element. -/
def LastQuotient (g q : MvPolynomial (Fin (k + 1)) K) : Prop :=
  last ∣ g ∧ g = q * last ∨ ¬ last ∣ g ∧ q = g

/-- The elements of a Gröbner basis, divided by the last variable where possible, are one of the quotient
of the ideal by that variable. -/
theorem IsGroebner.quotient_last {I J : Ideal (MvPolynomial (Fin (k + 1)) K)}
    (hJ : ∀ f, f ∈ J ↔ last * f ∈ I)
    {G H : Set (MvPolynomial (Fin (k + 1)) K)} (hG : IsGroebner (OrdKind.gRevLex.mathlib (k + 1)) I G)
    (hw : ∀ g ∈ G, ∃ d, IsWeightedHomogeneous (fun _ => 1 : Fin (k + 1) → ℕ) g d)
    (hGH : ∀ g ∈ G, ∃ q ∈ H, LastQuotient g q) (hHG : ∀ q ∈ H, ∃ g ∈ G, LastQuotient g q) :
    IsGroebner (OrdKind.gRevLex.mathlib (k + 1)) J H := by
  have hl : (last : MvPolynomial (Fin (k + 1)) K) ≠ 0 := X_ne_zero _
  have hd : (OrdKind.gRevLex.mathlib (k + 1)).degree (last : MvPolynomial (Fin (k + 1)) K) =
      Finsupp.single (Fin.last k) 1 := (OrdKind.gRevLex.mathlib (k + 1)).degree_X
  refine ⟨fun q hq => ?_, fun f hf hf0 => ?_⟩
  · obtain ⟨g, hg, ⟨-, h⟩ | ⟨-, h⟩⟩ := hHG q hq
    · rw [SetLike.mem_coe, hJ, mul_comm, ← h]
      exact hG.1 hg
    · rw [SetLike.mem_coe, hJ, h]
      exact I.mul_mem_left _ (hG.1 hg)
  · obtain ⟨g, hg, hg0, hle⟩ := hG.2 _ ((hJ f).mp hf) (mul_ne_zero hl hf0)
    rw [(OrdKind.gRevLex.mathlib (k + 1)).degree_mul hl hf0, hd] at hle
    obtain ⟨q, hq, ⟨-, h⟩ | ⟨hn, h⟩⟩ := hGH g hg
    · have hq0 : q ≠ 0 := by rintro rfl; exact hg0 (by rw [h, zero_mul])
      refine ⟨q, hq, hq0, ?_⟩
      rw [h, (OrdKind.gRevLex.mathlib (k + 1)).degree_mul hq0 hl, hd] at hle
      exact le_of_add_le_add_right (hle.trans (add_comm _ _).le)
    · subst h
      refine ⟨q, hq, hg0, fun i => ?_⟩
      have hz : (OrdKind.gRevLex.mathlib (k + 1)).degree q (Fin.last k) = 0 := by
        by_contra hne
        obtain ⟨d, hd⟩ := hw q hg
        exact hn (last_dvd fun e he h0 => hne (Nat.le_zero.mp (h0 ▸ gRevLex_last hd he)))
      by_cases hi : i = Fin.last k
      · rw [hi, hz]; exact Nat.zero_le _
      · have := hle i
        rwa [Finsupp.add_apply, Finsupp.single_apply, if_neg (Ne.symm hi), zero_add] at this

theorem divideByVar_spec {O : MOrder} {m : MonomialOrder (Fin (k + 1))} (hO : Implements O m)
    (g : Poly F) (hg : Poly.Clean (Fin (k + 1)) g) :
    Spec (PolyPanic F) (divideByVar O k g) (fun q => Poly.Clean (Fin (k + 1)) q ∧
      LastQuotient (K := K) (Poly.den (Fin (k + 1)) g) (Poly.den (Fin (k + 1)) q)) := by
  have hv := var_last (F := F) (K := K) (k := k)
  refine (C136_divide_one hO g (Poly.var k 1) hg hv.1 (by rw [hv.2]; exact X_ne_zero _)).bind ?_
  rintro ⟨r, qs⟩ ⟨q, rfl, hq, hr, hz, he, -⟩
  rw [hv.2] at hz he
  simp only
  by_cases h : r = []
  · rw [if_pos (by rw [h]; rfl)]
    refine ⟨hq, Or.inl ⟨hz.mp h, ?_⟩⟩
    rw [he, h, Poly.den_nil, add_zero]
  · rw [if_neg (by simpa [Poly.isZero] using h)]
    exact ⟨hg, Or.inr ⟨fun hd => h (hz.mpr hd), rfl⟩⟩

/-- The quotient of an ideal by the last variable. -/
noncomputable def lastColon (I : Ideal (MvPolynomial (Fin (k + 1)) K)) : Ideal (MvPolynomial (Fin (k + 1)) K) :=
  Submodule.comap (LinearMap.mulLeft (MvPolynomial (Fin (k + 1)) K) last) I

theorem total_homogeneous {g : Poly F} (hg : Poly.Clean (Fin (k + 1)) g) {d : ℕ}
    (h : ∀ t ∈ g, ∑ i : Fin (k + 1), t.mdeg.deg i = d) :
    IsWeightedHomogeneous (fun _ => 1 : Fin (k + 1) → ℕ)
      (Poly.den (Fin (k + 1)) g : MvPolynomial (Fin (k + 1)) K) d :=
  (homogeneous_iff_terms hg _ d).mpr fun t ht => by simpa using h t ht

/-- C197. If in each generator all terms have the same total degree, dividing the elements of a basis for
`GRevLex` by the last variable, where they are divisible by it, gives a Gröbner basis of the quotient of
the ideal by that variable: the polynomials whose product with it lies in the ideal. -/
theorem C197_quotient (gens : List (Poly F))
    (hg : ∀ g ∈ gens, Poly.Clean (Fin (k + 1)) g ∧
      Poly.den (Fin (k + 1)) g ≠ (0 : MvPolynomial (Fin (k + 1)) K))
    (hw : ∀ g ∈ gens, ∃ d, ∀ t ∈ g, ∑ i : Fin (k + 1), t.mdeg.deg i = d) :
    Spec (PolyPanic F) (quotientLast k gens) (fun H =>
      GroebnerList (K := K) (OrdKind.gRevLex.mathlib (k + 1)) H ∧
      ∀ f : MvPolynomial (Fin (k + 1)) K, f ∈ Ideal.span (dens (Fin (k + 1)) H) ↔
        X (Fin.last k) * f ∈ Ideal.span (dens (Fin (k + 1)) gens)) := by
  have hO := OrdKind.implements .gRevLex (k + 1)
  refine ((algorithm_spec hO gens hg (fun _ => True) trivial fun _ _ => trivial).and
    (C140_homogeneous (K := K) hO gens hg (fun _ => 1 : Fin (k + 1) → ℕ)
      fun g h => ?_)).bind fun G ⟨h, hh⟩ => ?_
  · obtain ⟨d, hd⟩ := hw g h
    exact ⟨d, total_homogeneous (hg g h).1 hd⟩
  · refine (mapM_spec (P := fun g q => Poly.Clean (Fin (k + 1)) q ∧
      LastQuotient (K := K) (Poly.den (Fin (k + 1)) g) (Poly.den (Fin (k + 1)) q))
      fun g hg => divideByVar_spec hO g (h.1 g hg).1).imp fun H hH => ?_
    have hQ : IsGroebner (OrdKind.gRevLex.mathlib (k + 1))
        (lastColon (Ideal.span (dens (Fin (k + 1)) gens : Set (MvPolynomial (Fin (k + 1)) K))))
        (dens (Fin (k + 1)) H) := by
      refine IsGroebner.quotient_last (fun f => Iff.rfl) h.2.1 ?_ ?_ ?_
      · rintro _ ⟨g, hg, rfl⟩
        exact hh g hg
      · rintro _ ⟨g, hg, rfl⟩
        obtain ⟨q, hq, hgq⟩ := forall₂_mem_right hH.flip hg
        exact ⟨_, mem_dens hq, hgq.2⟩
      · rintro _ ⟨q, hq, rfl⟩
        obtain ⟨g, hg, hgq⟩ := forall₂_mem_right hH hq
        exact ⟨_, mem_dens hg, hgq.2⟩
    refine ⟨⟨fun q hq => ?_, fun f hf hf0 => ?_⟩, fun f => ?_⟩
    · obtain ⟨g, -, hgq⟩ := forall₂_mem_right hH hq
      exact hgq.1
    · rw [hQ.span_eq] at hf
      obtain ⟨_, ⟨q, hq, rfl⟩, h0, hle⟩ := hQ.2 f hf hf0
      exact ⟨q, hq, h0, hle⟩
    · rw [hQ.span_eq]
      rfl

theorem degree_last_pos {m : MonomialOrder (Fin (k + 1))} {g : MvPolynomial (Fin (k + 1)) K} (h0 : g ≠ 0)
    (h : last ∣ g) : ∃ q : MvPolynomial (Fin (k + 1)) K, g = last * q ∧ q ≠ 0 ∧
      m.degree g = Finsupp.single (Fin.last k) 1 + m.degree q := by
  obtain ⟨q, rfl⟩ := h
  have hq : q ≠ 0 := by rintro rfl; exact h0 (mul_zero _)
  refine ⟨q, rfl, hq, ?_⟩
  rw [m.degree_mul (show (last : MvPolynomial (Fin (k + 1)) K) ≠ 0 from X_ne_zero _) hq]
  congr 1
  exact m.degree_X

theorem IsGroebner.regular_last {I : Ideal (MvPolynomial (Fin (k + 1)) K)}
    {G : Set (MvPolynomial (Fin (k + 1)) K)} (hG : IsGroebner (OrdKind.gRevLex.mathlib (k + 1)) I G)
    (h0 : 0 ∉ G) (hr : IsInterReduced (OrdKind.gRevLex.mathlib (k + 1)) G)
    (hw : ∀ g ∈ G, ∃ d, IsWeightedHomogeneous (fun _ => 1 : Fin (k + 1) → ℕ) g d) :
    (∀ g ∈ G, (OrdKind.gRevLex.mathlib (k + 1)).degree g (Fin.last k) = 0) ↔
      ∀ f, last * f ∈ I → f ∈ I := by
  constructor
  · intro h f hf
    have hn : ∀ g ∈ G, ¬ last ∣ g := fun g hg hd => by
      obtain ⟨q, -, -, e⟩ := degree_last_pos (m := OrdKind.gRevLex.mathlib (k + 1))
        (fun e => h0 (e ▸ hg)) hd
      have := h g hg
      rw [e, Finsupp.add_apply, Finsupp.single_eq_same] at this
      omega
    have hQ : IsGroebner (OrdKind.gRevLex.mathlib (k + 1)) (lastColon I) G :=
      IsGroebner.quotient_last (fun f => Iff.rfl) hG hw (fun g hg => ⟨g, hg, Or.inr ⟨hn g hg, rfl⟩⟩)
        fun g hg => ⟨g, hg, Or.inr ⟨hn g hg, rfl⟩⟩
    rw [← hG.span_eq, hQ.span_eq]
    exact hf
  · intro h g hg
    by_contra hne
    obtain ⟨d, hd⟩ := hw g hg
    have hg0 : g ≠ 0 := fun e => h0 (e ▸ hg)
    obtain ⟨q, e, hq, eD⟩ := degree_last_pos (m := OrdKind.gRevLex.mathlib (k + 1)) hg0
      (last_dvd fun e he h0 => hne (Nat.le_zero.mp (h0 ▸ gRevLex_last hd he)))
    obtain ⟨g', hg', hg0', hle⟩ := hG.2 q (h q (e ▸ hG.1 hg)) hq
    by_cases hgg : g = g'
    · subst hgg
      have := hle (Fin.last k)
      rw [eD, Finsupp.add_apply, Finsupp.single_eq_same] at this
      omega
    · refine hr g hg g' hg' hgg _ ((OrdKind.gRevLex.mathlib (k + 1)).degree_mem_support hg0) ?_
      rw [eD]
      exact hle.trans le_add_self

/-- C197. Then the last variable occurs in no leading term of the result exactly when multiplying by it
cannot bring a polynomial into the ideal. -/
theorem C197_regular (gens : List (Poly F))
    (hg : ∀ g ∈ gens, Poly.Clean (Fin (k + 1)) g ∧
      Poly.den (Fin (k + 1)) g ≠ (0 : MvPolynomial (Fin (k + 1)) K))
    (hw : ∀ g ∈ gens, ∃ d, ∀ t ∈ g, ∑ i : Fin (k + 1), t.mdeg.deg i = d) :
    Spec (PolyPanic F) (do
      let G ← Computer.buchbergerAlgorithm (OrdKind.gRevLex.order .debug) gens
      let lts ← G.mapM fun g => Computer.unwrapLeadingTerm (OrdKind.gRevLex.order .debug) g
      pure (lts.all fun t => t.mdeg.deg k = 0)) (fun b => b = true ↔
      ∀ f : MvPolynomial (Fin (k + 1)) K, X (Fin.last k) * f ∈ Ideal.span (dens (Fin (k + 1)) gens) →
        f ∈ Ideal.span (dens (Fin (k + 1)) gens)) := by
  have hO := OrdKind.implements .gRevLex (k + 1)
  refine ((algorithm_spec hO gens hg (fun _ => True) trivial fun _ _ => trivial).and
    (C140_homogeneous (K := K) hO gens hg (fun _ => 1 : Fin (k + 1) → ℕ)
      fun g h => ?_)).bind fun G ⟨h, hh⟩ => ?_
  · obtain ⟨d, hd⟩ := hw g h
    exact ⟨d, total_homogeneous (hg g h).1 hd⟩
  · refine (mapM_spec (P := fun g t => t.mdeg.toF (Fin (k + 1)) =
        (OrdKind.gRevLex.mathlib (k + 1)).degree (Poly.den (Fin (k + 1)) g : MvPolynomial (Fin (k + 1)) K))
      fun g hg => (unwrapLeadingTerm_spec hO.poly (h.1 g hg).1 (h.1 g hg).2).imp fun t ht => ht.2).bind
      fun lts hl => ?_
    have := h.2.1.regular_last ?_ h.2.2.2.2 ?_
    · refine Iff.trans ?_ this
      rw [List.all_eq_true]
      constructor
      · rintro ht _ ⟨g, hg, rfl⟩
        obtain ⟨t, htm, e⟩ := forall₂_mem_right hl.flip hg
        rw [← e, MDeg.toF_apply]
        exact of_decide_eq_true (ht t htm)
      · intro hz t htm
        obtain ⟨g, hg, e⟩ := forall₂_mem_right hl htm
        have := hz _ (mem_dens hg)
        rw [← e, MDeg.toF_apply] at this
        exact decide_eq_true this
    · rintro ⟨g, hg, e⟩
      exact h.1.den_ne hg e.symm
    · rintro _ ⟨g, hg, rfl⟩
      exact hh g hg

end
/-! ### Examples -/

/-- `x z` in the variables `x, y, z`. -/
def lvXZ : Poly Rational := [⟨⟨1, 1⟩, [1, 0, 1]⟩]
/-- `x^2 - y z`. -/
def lvQ : Poly Rational := [⟨⟨1, 1⟩, [2]⟩, ⟨⟨-1, 1⟩, [0, 1, 1]⟩]

/-- The hypotheses hold for `x z` and `x^2 - y z`. -/
example : letI := Rational.field .debug
    letI := Rational.lawful
    (∀ g ∈ [lvXZ, lvQ], Poly.Clean (Fin 3) g ∧ Poly.den (Fin 3) g ≠ (0 : MvPolynomial (Fin 3) ℚ)) ∧
    ∀ g ∈ [lvXZ, lvQ], ∃ d, ∀ t ∈ g, ∑ i : Fin 3, t.mdeg.deg i = d :=
  ⟨sampleGens (by decide), fun g hg => ⟨2, by revert g; decide⟩⟩

/-- The basis is `x z, x^2 - y z, y z^2`; the quotient by `z` is generated by `x, x^2 - y z, y z`. -/
example : letI := Rational.field .debug
    Computer.buchbergerAlgorithm (OrdKind.gRevLex.order .debug) [lvXZ, lvQ] =
      .ok [lvXZ, lvQ, [⟨⟨1, 1⟩, [0, 1, 2]⟩]] ∧
    quotientLast 2 [lvXZ, lvQ] =
      .ok [[⟨⟨1, 1⟩, [1]⟩], lvQ, [⟨⟨1, 1⟩, [0, 1, 1]⟩]] := by
  let _ := Rational.field .debug
  have h : Computer.buchbergerAlgorithm (OrdKind.gRevLex.order .debug) [lvXZ, lvQ] =
      .ok [lvXZ, lvQ, [⟨⟨1, 1⟩, [0, 1, 2]⟩]] :=
    (Computer.buchbergerAlgorithmN_approx 30 _).eq (by decide +kernel) (by simp)
  refine ⟨h, bind_eq_ok.mpr ⟨_, h, ?_⟩⟩
  rw [List.mapM_cons, List.mapM_cons, List.mapM_cons, List.mapM_nil]
  refine bind_eq_ok.mpr ⟨[⟨⟨1, 1⟩, [1]⟩], bind_eq_ok.mpr ⟨([], [[⟨⟨1, 1⟩, [1]⟩]]),
    (Computer.divideN_approx 30 _ _).eq (by decide +kernel) (by simp), rfl⟩, ?_⟩
  refine bind_eq_ok.mpr ⟨_, bind_eq_ok.mpr ⟨lvQ, bind_eq_ok.mpr ⟨([⟨⟨1, 1⟩, [2]⟩], [[⟨⟨-1, 1⟩, [0, 1]⟩]]),
    (Computer.divideN_approx 30 _ _).eq (by decide +kernel) (by simp), rfl⟩, ?_⟩, rfl⟩
  refine bind_eq_ok.mpr ⟨_, bind_eq_ok.mpr ⟨[⟨⟨1, 1⟩, [0, 1, 1]⟩],
    bind_eq_ok.mpr ⟨([], [[⟨⟨1, 1⟩, [0, 1, 1]⟩]]),
    (Computer.divideN_approx 30 _ _).eq (by decide +kernel) (by simp), rfl⟩, rfl⟩, rfl⟩

end Verif
