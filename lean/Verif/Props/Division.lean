import Verif.Props.Ideal

/-!
# Properties C120–C122: what `divide` returns is determined by the polynomials

Conventions as in `Props/Comp.lean`.
-/

namespace Verif
open Res MvPolynomial LawfulRField

theorem Res.Spec.imp_run {α : Type} {E : Panic → Prop} {x : Res α} {P Q : α → Prop} (h : Spec E x P)
    (hq : ∀ a, x = .ok a → P a → Q a) : Spec E x Q := by
  cases x with
  | ok a => exact hq a rfl h
  | panic p => exact h
  | diverge => exact h

/-! ## Uniqueness of determinate division -/

section
variable {K : Type} [Field K] {n : ℕ} {ι : Type} [Fintype ι] [LinearOrder ι]

/-- Division of `f` by the family `g` with quotients `q` and remainder `r`, where every monomial is
given to the first divisor whose leading monomial divides it: no monomial of the remainder is
divisible by a leading monomial, and no monomial of `q_i LM(g_i)` is divisible by the leading monomial
of an earlier divisor. A zero divisor gets the quotient zero. -/
structure IsDivision (m : MonomialOrder (Fin n)) (g : ι → MvPolynomial (Fin n) K)
    (f : MvPolynomial (Fin n) K) (q : ι → MvPolynomial (Fin n) K) (r : MvPolynomial (Fin n) K) :
    Prop where
  identity : f = ∑ i, q i * g i + r
  remainder : ∀ e ∈ r.support, ∀ i, g i ≠ 0 → ¬ m.degree (g i) ≤ e
  quotient : ∀ i, ∀ e ∈ (q i).support, g i ≠ 0 ∧
    ∀ j < i, g j ≠ 0 → ¬ m.degree (g j) ≤ e + m.degree (g i)

/-- Polynomials with pairwise different leading monomials do not cancel. -/
theorem sum_ne_zero_of_degrees (m : MonomialOrder (Fin n)) {κ : Type} (s : Finset κ)
    (p : κ → MvPolynomial (Fin n) K)
    (hd : ∀ i ∈ s, ∀ j ∈ s, p i ≠ 0 → p j ≠ 0 → m.degree (p i) = m.degree (p j) → i = j)
    (h0 : ∑ i ∈ s, p i = 0) : ∀ i ∈ s, p i = 0 := by
  classical
  by_contra hcon
  push Not at hcon
  obtain ⟨i₀, hi₀, hne₀⟩ := hcon
  obtain ⟨i, hi, hmax⟩ := Finset.exists_max_image (s.filter fun i => p i ≠ 0)
    (fun i => m.toSyn (m.degree (p i))) ⟨i₀, by simp [hi₀, hne₀]⟩
  obtain ⟨his, hine⟩ := Finset.mem_filter.mp hi
  have hco := congrArg (coeff (m.degree (p i))) h0
  rw [coeff_sum, Finset.sum_eq_single i ?_ (fun h => absurd his h), coeff_zero] at hco
  · exact hine (m.leadingCoeff_eq_zero_iff.mp hco)
  · intro j hj hji
    by_cases hjne : p j = 0
    · rw [hjne, coeff_zero]
    refine m.coeff_eq_zero_of_lt (lt_of_le_of_ne (hmax j (by simp [hj, hjne])) fun he => hji ?_)
    exact hd j hj i his hjne hine (m.toSyn.injective he)

/-- The conditions are linear in the dividend. -/
theorem IsDivision.linear {m : MonomialOrder (Fin n)} {g q₁ q₂ : ι → MvPolynomial (Fin n) K}
    {f₁ f₂ r₁ r₂ : MvPolynomial (Fin n) K} (h₁ : IsDivision m g f₁ q₁ r₁)
    (h₂ : IsDivision m g f₂ q₂ r₂) (a b : K) :
    IsDivision m g (C a * f₁ + C b * f₂) (fun i => C a * q₁ i + C b * q₂ i)
      (C a * r₁ + C b * r₂) := by
  classical
  have hs : ∀ (p q : MvPolynomial (Fin n) K) (e : Fin n →₀ ℕ), e ∈ (C a * p + C b * q).support →
      e ∈ p.support ∨ e ∈ q.support := by
    intro p q e he
    by_contra hcon
    push Not at hcon
    rw [notMem_support_iff, notMem_support_iff] at hcon
    rw [mem_support_iff, coeff_add, coeff_C_mul, coeff_C_mul, hcon.1, hcon.2] at he
    simp at he
  refine ⟨?_, fun e he i hi => ?_, fun i e he => ?_⟩
  · rw [h₁.identity, h₂.identity]
    simp only [mul_add, add_mul, Finset.sum_add_distrib, Finset.mul_sum]
    simp only [mul_assoc]
    ring
  · rcases hs _ _ e he with h | h
    · exact h₁.remainder e h i hi
    · exact h₂.remainder e h i hi
  · rcases hs _ _ e he with h | h
    · exact h₁.quotient i e h
    · exact h₂.quotient i e h

theorem IsDivision.of_zero {m : MonomialOrder (Fin n)} {g q : ι → MvPolynomial (Fin n) K}
    {r : MvPolynomial (Fin n) K} (h : IsDivision m g 0 q r) : q = 0 ∧ r = 0 := by
  classical
  -- the summands, the remainder under `none`
  let p : Option ι → MvPolynomial (Fin n) K := fun o => o.elim r fun i => q i * g i
  have hsum : ∑ o, p o = 0 := by
    rw [Fintype.sum_option]
    change r + ∑ i, q i * g i = 0
    rw [add_comm]; exact h.identity.symm
  have hqdeg : ∀ i, q i * g i ≠ 0 → q i ≠ 0 ∧ g i ≠ 0 ∧
      m.degree (q i * g i) = m.degree (q i) + m.degree (g i) := by
    intro i hi
    have h1 : q i ≠ 0 := left_ne_zero_of_mul hi
    have h2 : g i ≠ 0 := right_ne_zero_of_mul hi
    exact ⟨h1, h2, m.degree_mul h1 h2⟩
  have hle : ∀ i, q i * g i ≠ 0 → m.degree (g i) ≤ m.degree (q i * g i) := by
    intro i hi
    rw [(hqdeg i hi).2.2]; exact le_add_self
  have hlt : ∀ i j, j < i → q i * g i ≠ 0 → q j * g j ≠ 0 →
      m.degree (q i * g i) ≠ m.degree (q j * g j) := by
    intro i j hji hi hj he
    obtain ⟨h1, h2, h3⟩ := hqdeg i hi
    refine (h.quotient i _ (m.degree_mem_support h1)).2 j hji (hqdeg j hj).2.1 ?_
    rw [← h3, he]; exact hle j hj
  have hr : ∀ i, r ≠ 0 → q i * g i ≠ 0 → m.degree r ≠ m.degree (q i * g i) := by
    intro i hr hi he
    refine h.remainder _ (m.degree_mem_support hr) i (hqdeg i hi).2.1 ?_
    rw [he]; exact hle i hi
  have hz := sum_ne_zero_of_degrees m Finset.univ p ?_ hsum
  · refine ⟨?_, hz none (Finset.mem_univ _)⟩
    funext i
    by_contra hne
    have hne : q i ≠ 0 := hne
    obtain ⟨e, he⟩ := (MvPolynomial.support_nonempty (p := q i)).mpr hne
    exact mul_ne_zero hne (h.quotient i e he).1 (hz (some i) (Finset.mem_univ _))
  · rintro (_ | i) _ (_ | j) _ hi hj he
    · rfl
    · exact absurd he (hr j hi hj)
    · exact absurd he.symm (hr i hj hi)
    · rcases lt_trichotomy i j with hij | hij | hij
      · exact absurd he.symm (hlt j i hij hj hi)
      · rw [hij]
      · exact absurd he (hlt i j hij hi hj)

/-- There is at most one determinate division. -/
theorem IsDivision.unique {m : MonomialOrder (Fin n)} {g q₁ q₂ : ι → MvPolynomial (Fin n) K}
    {f r₁ r₂ : MvPolynomial (Fin n) K} (h₁ : IsDivision m g f q₁ r₁)
    (h₂ : IsDivision m g f q₂ r₂) : q₁ = q₂ ∧ r₁ = r₂ := by
  have h := h₁.linear h₂ 1 (-1)
  have e : C (1 : K) * f + C (-1) * f = 0 := by simp
  rw [e] at h
  obtain ⟨hq, hr⟩ := h.of_zero
  constructor
  · funext i
    have := congrFun hq i
    simp only [map_one, one_mul, map_neg, neg_mul, Pi.zero_apply] at this
    exact sub_eq_zero.mp (by rw [sub_eq_add_neg]; exact this)
  · simp only [map_one, one_mul, map_neg, neg_mul] at hr
    exact sub_eq_zero.mp (by rw [sub_eq_add_neg]; exact hr)

end

section
variable {F : Type} [RField F] {K : Type} [Field K] [LawfulRField F K]
variable {n : ℕ} {O : MOrder} {m : MonomialOrder (Fin n)}

/-! ## The quotients -/

/-- The inner loop of `divide` takes the first divisor whose leading monomial divides. -/
theorem divideFor_first (hO : Implements O m) {ltF : Term F} {f : Poly F}
    (hlt : ltF.Clean (Fin n)) (L : List (Poly F × Poly F))
    (hL : ∀ x ∈ L, Poly.Clean (Fin n) x.1) {qs : List (Poly F)} {f' : Poly F}
    (h : Computer.divideFor O ltF f L = .ok (some (qs, f'))) :
    ∃ pre g q suf q', ∃ a : Term F, L = pre ++ (g, q) :: suf ∧
      qs = pre.map (·.2) ++ q' :: suf.map (·.2) ∧ Poly.den (Fin n) g ≠ 0 ∧ a.Clean (Fin n) ∧
      Poly.addTerm q a = .ok q' ∧
      ltF.mdeg.toF (Fin n) = a.mdeg.toF (Fin n) + m.degree (Poly.den (Fin n) g) ∧
      ∀ x ∈ pre, Poly.den (Fin n) x.1 ≠ 0 →
        ¬ m.degree (Poly.den (Fin n) x.1) ≤ ltF.mdeg.toF (Fin n) := by
  induction L generalizing qs f' with
  | nil => cases h
  | cons x rest ih =>
    obtain ⟨g, q⟩ := x
    have hg := hL (g, q) (by simp)
    have next : (Poly.den (Fin n) g ≠ 0 → ¬ m.degree (Poly.den (Fin n) g) ≤ ltF.mdeg.toF (Fin n)) →
        (do
          match ← Computer.divideFor O ltF f rest with
          | none => pure none
          | some (qs, f') => pure (some (q :: qs, f'))) = Res.ok (some (qs, f')) →
        ∃ pre g' q₀ suf q', ∃ a : Term F, (g, q) :: rest = pre ++ (g', q₀) :: suf ∧
          qs = pre.map (·.2) ++ q' :: suf.map (·.2) ∧ Poly.den (Fin n) g' ≠ 0 ∧ a.Clean (Fin n) ∧
          Poly.addTerm q₀ a = .ok q' ∧
          ltF.mdeg.toF (Fin n) = a.mdeg.toF (Fin n) + m.degree (Poly.den (Fin n) g') ∧
          ∀ x ∈ pre, Poly.den (Fin n) x.1 ≠ 0 →
            ¬ m.degree (Poly.den (Fin n) x.1) ≤ ltF.mdeg.toF (Fin n) := by
      intro hno hn
      rw [bind_eq_ok] at hn
      obtain ⟨o, ho, hn⟩ := hn
      rcases o with _ | ⟨qs', f''⟩
      · cases hn
      · cases hn
        obtain ⟨pre, g', q₀, suf, q', a, h1, h2, h3, h4, h5, h6, h7⟩ :=
          ih (fun x hx => hL x (by simp [hx])) ho
        refine ⟨(g, q) :: pre, g', q₀, suf, q', a, by simp [h1], by simp [h2], h3, h4, h5, h6, ?_⟩
        intro x hx
        rcases List.mem_cons.mp hx with rfl | hx
        · exact hno
        · exact h7 x hx
    unfold Computer.divideFor at h
    rw [bind_eq_ok] at h
    obtain ⟨o, ho, h⟩ := h
    have hG := (leadingTerm_spec (hO.poly (F := F)) hg in_true).of_ok ho
    rcases o with _ | ltG
    · refine next (fun hne => absurd ?_ hne) h
      rw [show g = [] from hG]; rfl
    · obtain ⟨hmem, hltG, hdG, hcG⟩ := hG
      have hgden : Poly.den (Fin n) g ≠ 0 := by
        rw [Ne, Poly.den_eq_zero_iff hg]; rintro rfl; simp at hmem
      dsimp only at h
      rw [bind_eq_ok] at h
      obtain ⟨o, ho, h⟩ := h
      have ha := (Term.tryDiv_spec hlt hltG).of_ok ho
      rcases o with _ | a
      · exact next (fun _ => by rw [← hdG]; exact ha) h
      · obtain ⟨hac, hav, had⟩ := ha
        dsimp only at h
        rw [bind_eq_ok] at h
        obtain ⟨q', hq', h⟩ := h
        rw [bind_eq_ok] at h
        obtain ⟨ag, _, h⟩ := h
        rw [bind_eq_ok] at h
        obtain ⟨f'', _, h⟩ := h
        cases h
        refine ⟨[], g, q, rest, q', a, rfl, rfl, hgden, hac, hq', ?_, by simp⟩
        rw [had, hdG]

/-- Invariant on the quotients: `x` runs over the pairs of a divisor and its quotient, after the
pairs in `pre`. -/
structure QuotInv (m : MonomialOrder (Fin n)) (f : Poly F) (pre : List (Poly F × Poly F))
    (x : Poly F × Poly F) : Prop where
  desc : Descending m x.2
  above : ∀ t ∈ x.2, ∀ u ∈ f, m.toSyn (u.mdeg.toF (Fin n)) <
    m.toSyn (t.mdeg.toF (Fin n) + m.degree (Poly.den (Fin n) x.1))
  ne : ∀ t ∈ x.2, Poly.den (Fin n) x.1 ≠ 0
  first : ∀ t ∈ x.2, ∀ y ∈ pre, Poly.den (Fin n) y.1 ≠ 0 →
    ¬ m.degree (Poly.den (Fin n) y.1) ≤ t.mdeg.toF (Fin n) + m.degree (Poly.den (Fin n) x.1)

/-- `QuotInv` for every pair of a list. -/
def QuotInvs (m : MonomialOrder (Fin n)) (f : Poly F) (L : List (Poly F × Poly F)) : Prop :=
  ∀ pre x suf, L = pre ++ x :: suf → QuotInv m f pre x

/-- Every term of the next dividend is below the leading term of the last. -/
theorem divideStep_below (hO : Implements O m) {f₀ : Poly F} {divs : List (Poly F)}
    (hd : ∀ g ∈ divs, Poly.Clean (Fin n) g) {s s' : Computer.DivState F}
    (hs : DivInv m (fun _ => True) f₀ divs s)
    (h : Computer.divideStep O divs s = .ok (.inl s')) :
    ∀ u ∈ s'.f, m.toSyn (u.mdeg.toF (Fin n)) < m.toSyn (m.degree (Poly.den (Fin n) s.f)) := by
  intro u hu
  have h1 := (divideStep_spec (hO.poly (F := F)) polyPanic_allowed
    (fun g hg => ⟨hd g hg, in_true⟩) s hs).of_ok h
  refine lt_of_le_of_lt (mem_key_le_degree h1.1.clean hu) ?_
  have hne : Poly.den (Fin n) s'.f ≠ 0 := by
    rw [Ne, Poly.den_eq_zero_iff h1.1.clean]
    intro h0; rw [h0] at hu; simp at hu
  have hne' : Poly.den (Fin n) s.f ≠ 0 := by
    intro h0
    have hw := h1.2
    unfold wdeg at hw
    rw [if_neg hne, if_pos h0] at hw
    exact absurd hw not_lt_bot
  have hw := h1.2
  unfold wdeg at hw
  rw [if_neg hne, if_neg hne'] at hw
  exact WithBot.coe_lt_coe.mp hw

theorem quotInvs_step (hO : Implements O m) {f₀ : Poly F} {divs : List (Poly F)}
    (hd : ∀ g ∈ divs, Poly.Clean (Fin n) g) {s s' : Computer.DivState F}
    (hs : DivInv m (fun _ => True) f₀ divs s) (hq : QuotInvs m s.f (divs.zip s.quotients))
    (h : Computer.divideStep O divs s = .ok (.inl s')) :
    QuotInvs m s'.f (divs.zip s'.quotients) := by
  have hbelow := divideStep_below hO hd hs h
  have hfne : s.f ≠ [] := by
    intro h0
    unfold Computer.divideStep at h
    rw [h0] at h
    cases h
  -- pairs that stay
  have stay : ∀ pre x, QuotInv m s.f pre x → QuotInv m s'.f pre x := by
    intro pre x hx
    refine ⟨hx.desc, fun t ht u hu => ?_, hx.ne, hx.first⟩
    obtain ⟨l, hl⟩ : ∃ l ∈ s.f, l.mdeg.toF (Fin n) = m.degree (Poly.den (Fin n) s.f) := by
      have := m.degree_mem_support (p := Poly.den (Fin n) s.f)
        (by rwa [Ne, Poly.den_eq_zero_iff hs.clean])
      exact (Poly.mem_support_den hs.clean).mp this
    refine (hbelow u hu).trans ?_
    rw [← hl.2]
    exact hx.above t ht l hl.1
  rcases divideStep_cases h with ⟨ltF, qs, f', hlt, hfor, rfl⟩ | ⟨sorted, hsort, hcase⟩
  · have hl := (leadingTerm_spec (hO.poly (F := F)) hs.clean in_true).of_ok hlt
    obtain ⟨hlmem, hlc, hld, _⟩ := hl
    obtain ⟨pre, g, q, suf, q', a, h1, h2, h3, h4, h5, h6, h7⟩ := divideFor_first hO hlc _
      (fun x hx => hd _ (List.of_mem_zip (a := x.1) (b := x.2) hx).1) hfor
    obtain ⟨L, hL1, hL2, _, _⟩ := hs.pairs
    have hzip : divs.zip s.quotients = L := by rw [← hL1, ← hL2]; exact zip_of_maps L
    have hnew : divs.zip qs = pre ++ (g, q') :: suf := by
      rw [← hL1, ← hzip, h1, h2]
      have : (pre ++ (g, q) :: suf).map (·.1) = (pre ++ (g, q') :: suf).map (·.1) := by simp
      rw [this]
      have : pre.map (·.2) ++ q' :: suf.map (·.2) = (pre ++ (g, q') :: suf).map (·.2) := by simp
      rw [this]
      exact zip_of_maps _
    have hpush : q' = q ++ [a] := by
      have := (hq pre (g, q) suf h1).above
      have hp := addTerm_push (p := q) h4 fun u hu heq => by
        have := this u hu ltF hlmem
        simp only at this
        rw [heq, ← h6] at this
        exact lt_irrefl _ this
      rw [hp] at h5; cases h5; rfl
    have hnewInv : QuotInv m f' pre (g, q') := by
      have hold := stay pre (g, q) (hq pre (g, q) suf h1)
      have habove := (hq pre (g, q) suf h1).above
      subst hpush
      refine ⟨?_, fun t ht u hu => ?_, fun t _ => h3, fun t ht y hy hyne => ?_⟩
      · refine List.pairwise_append.mpr ⟨hold.desc, by simp, fun t ht b hb => ?_⟩
        rw [List.mem_singleton.mp hb]
        have := habove t ht ltF hlmem
        rw [h6, map_add, map_add] at this
        exact lt_of_add_lt_add_right this
      · rcases List.mem_append.mp ht with ht | ht
        · exact hold.above t ht u hu
        · rw [List.mem_singleton.mp ht]
          have := hbelow u hu
          rw [← hld, h6] at this
          exact this
      · rcases List.mem_append.mp ht with ht | ht
        · exact hold.first t ht y hy hyne
        · rw [List.mem_singleton.mp ht]
          have := h7 y hy hyne
          rw [h6] at this
          exact this
    intro pre' x suf' heq
    dsimp only at heq ⊢
    rw [hnew] at heq
    rcases List.append_eq_append_iff.mp heq with ⟨c, hc1, hc2⟩ | ⟨c, hc1, hc2⟩
    · -- `pre` is a prefix of `pre'`
      rcases c with _ | ⟨y, c⟩
      · rw [List.nil_append] at hc2
        rw [List.append_nil] at hc1
        injection hc2 with hx _
        rw [hc1, ← hx]; exact hnewInv
      · rw [List.cons_append] at hc2
        injection hc2 with hy hc2
        have hold := stay (pre ++ (g, q) :: c) x 
          (hq _ x suf' (by rw [h1, hc2]; simp))
        refine ⟨hold.desc, hold.above, hold.ne, fun t ht z hz hzne => ?_⟩
        rw [hc1, ← hy] at hz
        rcases List.mem_append.mp hz with hz | hz
        · exact hold.first t ht z (by simp [hz]) hzne
        · rcases List.mem_cons.mp hz with rfl | hz
          · exact hold.first t ht (g, q) (by simp) hzne
          · exact hold.first t ht z (by simp [hz]) hzne
    · -- `pre'` is a prefix of `pre`
      rcases c with _ | ⟨y, c⟩
      · rw [List.nil_append] at hc2
        rw [List.append_nil] at hc1
        injection hc2 with hx _
        rw [← hc1, hx]; exact hnewInv
      · rw [List.cons_append] at hc2
        injection hc2 with hy hc2
        refine stay pre' x (hq pre' x (c ++ (g, q) :: suf) ?_)
        rw [h1, hc1, hy]; simp
  · have hqs : s'.quotients = s.quotients := by
      rcases hcase with ⟨_, rfl⟩ | ⟨_, _, _, _, _, rfl⟩ <;> rfl
    rw [hqs]
    exact fun pre x suf heq => stay pre x (hq pre x suf heq)

theorem divide_quotInvs (hO : Implements O m) (f : Poly F) (divs : List (Poly F))
    (hf : Poly.Clean (Fin n) f) (hd : ∀ g ∈ divs, Poly.Clean (Fin n) g) (r : Poly F)
    (qs : List (Poly F)) (h : Computer.divide O f divs = .ok (r, qs)) :
    QuotInvs m [] (divs.zip qs) := by
  have hdB : ∀ g ∈ divs, Poly.Clean (Fin n) g ∧ Poly.In (fun _ : Fin n →₀ ℕ => True) g :=
    fun g h => ⟨hd g h, in_true⟩
  refine loop_partial (step := Computer.divideStep O divs)
    (fun s => DivInv m (fun _ => True) f divs s ∧ QuotInvs m s.f (divs.zip s.quotients))
    (fun x => QuotInvs m [] (divs.zip x.2)) ?_ ?_ ?_ h
  · rintro s s' ⟨hi, hq⟩ hstep
    have h1 := (divideStep_spec (hO.poly (F := F)) polyPanic_allowed hdB s hi).of_ok hstep
    exact ⟨h1.1, quotInvs_step hO hd hi hq hstep⟩
  · rintro s ⟨r, qs⟩ ⟨hi, hq⟩ hstep
    have h1 := (divideStep_spec (hO.poly (F := F)) polyPanic_allowed hdB s hi).of_ok hstep
    obtain ⟨_, h2, h3⟩ := h1
    rw [h3] at hq
    simp only
    rw [h2]; exact hq
  · refine ⟨divInv_init hf in_true, fun pre x suf heq => ?_⟩
    have hx : x.2 = [] := by
      have : x ∈ divs.zip (List.replicate divs.length (Poly.zero : Poly F)) := by
        dsimp only at heq; rw [heq]; simp
      have := (List.of_mem_zip (a := x.1) (b := x.2) this).2
      exact (List.mem_replicate.mp this).2
    refine ⟨?_, ?_, ?_, ?_⟩
    · rw [hx]; exact List.Pairwise.nil
    all_goals rw [hx]; simp

/-! ## C120 division is determinate -/

theorem combination_eq_sum (qs gs : List (Poly F)) (h : qs.length = gs.length) :
    (combination n qs gs : MvPolynomial (Fin n) K) =
      ∑ i : Fin gs.length, Poly.den (Fin n) (qs.getD i []) * Poly.den (Fin n) (gs.get i) := by
  unfold combination
  induction gs generalizing qs with
  | nil => simp
  | cons g gs ih =>
    rcases qs with _ | ⟨q, qs⟩
    · simp at h
    · rw [List.zipWith_cons_cons, List.sum_cons, ih qs (by simpa using h)]
      exact (Fin.sum_univ_succ (n := gs.length) fun i : Fin (g :: gs).length =>
        Poly.den (Fin n) ((q :: qs).getD i []) * Poly.den (Fin n) ((g :: gs).get i)).symm

/-- C120. `divide` gives every monomial to the first divisor whose leading monomial divides it. -/
theorem C120_determinate (hO : Implements O m) (f : Poly F) (divs : List (Poly F))
    (hf : Poly.Clean (Fin n) f) (hd : ∀ g ∈ divs, Poly.Clean (Fin n) g) :
    Spec (PolyPanic F) (Computer.divide O f divs) (fun (r, qs) => qs.length = divs.length ∧
      IsDivision m (fun i : Fin divs.length => Poly.den (Fin n) (divs.get i)) (Poly.den (Fin n) f)
        (fun i => Poly.den (Fin n) (qs.getD i [])) (Poly.den (Fin n) r)) := by
  refine ((C36_divide_identity hO f divs hf hd).and
    (C37_remainder_reduced hO f divs hf hd)).imp_run ?_
  rintro ⟨r, qs⟩ hrun ⟨⟨h1, h2, h3, h4⟩, h5⟩
  refine ⟨h2, ?_, fun e he i hi => h5 e he _ (List.get_mem _ _) hi, fun i e he => ?_⟩
  · rw [h4, combination_eq_sum qs divs h2]
  · have hi : (i : ℕ) < qs.length := by rw [h2]; exact i.2
    have hgd : qs.getD i [] = qs[(i : ℕ)] := by simp [List.getD, hi]
    rw [hgd] at he
    have hinv := divide_quotInvs hO f divs hf hd r qs hrun
    have hz : (i : ℕ) < (divs.zip qs).length := by simp [h2]
    have hsplit : divs.zip qs = (divs.zip qs).take i ++ (divs.zip qs)[(i : ℕ)] ::
        (divs.zip qs).drop (i + 1) := by
      rw [List.getElem_cons_drop]; exact (List.take_append_drop _ _).symm
    have hq := hinv _ _ _ hsplit
    rw [List.getElem_zip] at hq
    obtain ⟨t, ht, rfl⟩ := (Poly.mem_support_den (h3 _ (List.getElem_mem hi))).mp he
    refine ⟨hq.ne t ht, fun j hj hjne => ?_⟩
    refine hq.first t ht (divs[(j : ℕ)], qs[(j : ℕ)]'(by rw [h2]; exact j.2)) ?_ hjne
    rw [List.mem_take_iff_getElem]
    exact ⟨j, by have := hj; simp [h2]; omega, by rw [List.getElem_zip]⟩

/-- C120. The result of `divide` is the only determinate division of `f` by the divisors. -/
theorem C120_unique (hO : Implements O m) (f : Poly F) (divs : List (Poly F))
    (hf : Poly.Clean (Fin n) f) (hd : ∀ g ∈ divs, Poly.Clean (Fin n) g)
    (q : Fin divs.length → MvPolynomial (Fin n) K) (r : MvPolynomial (Fin n) K)
    (hqr : IsDivision m (fun i : Fin divs.length => Poly.den (Fin n) (divs.get i))
      (Poly.den (Fin n) f) q r) :
    Spec (PolyPanic F) (Computer.divide O f divs) (fun (r', qs) => Poly.den (Fin n) r' = r ∧
      ∀ i : Fin divs.length, Poly.den (Fin n) (qs.getD i []) = q i) := by
  refine (C120_determinate hO f divs hf hd).imp ?_
  rintro ⟨r', qs⟩ ⟨_, h⟩
  obtain ⟨h1, h2⟩ := h.unique hqr
  exact ⟨h2, fun i => congrFun h1 i⟩

/-! ## C121 the order of the terms of the quotients -/

/-- C121. The terms of every quotient are in strictly descending order. -/
theorem C121_quotients_descending (hO : Implements O m) (f : Poly F) (divs : List (Poly F))
    (hf : Poly.Clean (Fin n) f) (hd : ∀ g ∈ divs, Poly.Clean (Fin n) g) (r : Poly F)
    (qs : List (Poly F)) (h : Computer.divide O f divs = .ok (r, qs)) :
    ∀ q ∈ qs, Descending m q := by
  have h2 := ((C36_divide_identity hO f divs hf hd).of_ok h).2.1
  have hinv := divide_quotInvs hO f divs hf hd r qs h
  intro q hq
  obtain ⟨i, hi, rfl⟩ := List.getElem_of_mem hq
  have hz : i < (divs.zip qs).length := by simp [h2]; omega
  have hsplit : divs.zip qs = (divs.zip qs).take i ++ (divs.zip qs)[i] ::
      (divs.zip qs).drop (i + 1) := by
    rw [List.getElem_cons_drop]; exact (List.take_append_drop _ _).symm
  have hq := (hinv _ _ _ hsplit).desc
  rw [List.getElem_zip] at hq
  exact hq

/-- The same terms in the same order, coefficients compared by value. -/
def TermsAgree (p q : Poly F) : Prop :=
  List.Forall₂ (fun s t : Term F => s.mdeg = t.mdeg ∧ (val s.coef : K) = val t.coef) p q

theorem Descending.same {p q : Poly F} (hp : Poly.Clean (Fin n) p) (hq : Poly.Clean (Fin n) q)
    (sp : Descending m p) (sq : Descending m q) (h : Poly.den (Fin n) p = Poly.den (Fin n) q) :
    TermsAgree p q := by
  have key : ∀ r : Poly F, Descending m r →
      (r.map fun t => (t.mdeg, (val t.coef : K))).Pairwise
        fun a b => m.toSyn (b.1.toF (Fin n)) < m.toSyn (a.1.toF (Fin n)) := fun r hr =>
    List.pairwise_map.mpr hr
  have := (Poly.den_inj hp hq h).eq_of_pairwise (fun a b _ _ h1 h2 => absurd h1 (lt_asymm h2))
    (key _ sp) (key _ sq)
  clear * - this
  induction p generalizing q with
  | nil => cases q with
    | nil => exact .nil
    | cons t q => simp at this
  | cons s p ih => cases q with
    | nil => simp at this
    | cons t q =>
      simp only [List.map_cons, List.cons.injEq, Prod.mk.injEq] at this
      exact .cons this.1 (ih this.2)

/-- C121. The result depends only on the polynomials: however the terms of the dividend and of the
divisors are listed, the remainder and the quotients have the same terms in the same order. -/
theorem C121_representation_independent (hO : Implements O m) (f f' : Poly F)
    (divs divs' : List (Poly F)) (hf : Poly.Clean (Fin n) f) (hf' : Poly.Clean (Fin n) f')
    (hd : ∀ g ∈ divs, Poly.Clean (Fin n) g) (hd' : ∀ g ∈ divs', Poly.Clean (Fin n) g)
    (hff : Poly.den (Fin n) f = Poly.den (Fin n) f')
    (hdd : List.Forall₂ (fun g g' => Poly.den (Fin n) g = Poly.den (Fin n) g') divs divs')
    (r r' : Poly F) (qs qs' : List (Poly F)) (h : Computer.divide O f divs = .ok (r, qs))
    (h' : Computer.divide O f' divs' = .ok (r', qs')) :
    TermsAgree r r' ∧ List.Forall₂ TermsAgree qs qs' := by
  have i₁ := (C36_divide_identity hO f divs hf hd).of_ok h
  have i₂ := (C36_divide_identity hO f' divs' hf' hd').of_ok h'
  obtain ⟨l₁, d₁⟩ := (C120_determinate hO f divs hf hd).of_ok h
  obtain ⟨l₂, d₂⟩ := (C120_determinate hO f' divs' hf' hd').of_ok h'
  have q₁ := C121_quotients_descending hO f divs hf hd r qs h
  have q₂ := C121_quotients_descending hO f' divs' hf' hd' r' qs' h'
  have r₁ := C98_descending hO f divs hf hd r qs h
  have r₂ := C98_descending hO f' divs' hf' hd' r' qs' h'
  have hlen := hdd.length_eq
  have d₂' : IsDivision m (fun i : Fin divs.length => Poly.den (Fin n) (divs.get i))
      (Poly.den (Fin n) f) (fun i => Poly.den (Fin n) (qs'.getD i [])) (Poly.den (Fin n) r') := by
    rw [hff]
    have hg : ∀ (i : ℕ) (hi : i < divs.length) (hi' : i < divs'.length),
        Poly.den (Fin n) divs[i] = Poly.den (Fin n) divs'[i] := fun i hi hi' =>
      List.forall₂_iff_get.mp hdd |>.2 i hi hi'
    clear * - d₂ hlen hg
    have e : (fun i : Fin divs.length => Poly.den (Fin n) (divs.get i)) =
        fun i : Fin divs.length => Poly.den (Fin n) (divs'.get (i.cast hlen)) := by
      funext i
      exact hg i i.2 (by rw [← hlen]; exact i.2)
    rw [e]
    refine ⟨?_, fun e he i => d₂.remainder e he (i.cast hlen), fun i e he => ?_⟩
    · rw [d₂.identity]
      congr 1
      exact (Fintype.sum_equiv (finCongr hlen) _ _ fun i => rfl).symm
    · obtain ⟨h1, h2⟩ := d₂.quotient (i.cast hlen) e he
      exact ⟨h1, fun j hj => h2 (j.cast hlen) hj⟩
  obtain ⟨hq, hr⟩ := d₁.unique d₂'
  refine ⟨r₁.same i₁.1 i₂.1 r₂ hr, ?_⟩
  refine List.forall₂_iff_get.mpr ⟨by rw [l₁, l₂, hlen], fun i hi hi' => ?_⟩
  have := congrFun hq ⟨i, by rw [← l₁]; exact hi⟩
  simp only [List.getD, hi, hi', List.getElem?_eq_getElem, Option.getD_some] at this
  exact (q₁ _ (List.getElem_mem hi)).same (i₁.2.2.1 _ (List.getElem_mem hi))
    (i₂.2.2.1 _ (List.getElem_mem hi')) (q₂ _ (List.getElem_mem hi')) this

/-! ## C122 division is linear in the dividend -/

/-- C122. If `f = a f₁ + b f₂` then the remainder and each quotient of `f` are the same combination of
those of `f₁` and `f₂`. The divisors need not be a Gröbner basis. -/
theorem C122_divide_linear (hO : Implements O m) (f f₁ f₂ : Poly F) (divs : List (Poly F)) (a b : K)
    (hf : Poly.Clean (Fin n) f) (hf₁ : Poly.Clean (Fin n) f₁) (hf₂ : Poly.Clean (Fin n) f₂)
    (hd : ∀ g ∈ divs, Poly.Clean (Fin n) g)
    (hlin : Poly.den (Fin n) f = C a * Poly.den (Fin n) f₁ + C b * Poly.den (Fin n) f₂)
    (r r₁ r₂ : Poly F) (qs qs₁ qs₂ : List (Poly F)) (h : Computer.divide O f divs = .ok (r, qs))
    (h₁ : Computer.divide O f₁ divs = .ok (r₁, qs₁))
    (h₂ : Computer.divide O f₂ divs = .ok (r₂, qs₂)) :
    Poly.den (Fin n) r = C a * Poly.den (Fin n) r₁ + C b * Poly.den (Fin n) r₂ ∧
    ∀ i < divs.length, Poly.den (Fin n) (qs.getD i []) =
      C a * Poly.den (Fin n) (qs₁.getD i []) + C b * Poly.den (Fin n) (qs₂.getD i []) := by
  have d := ((C120_determinate hO f divs hf hd).of_ok h).2
  have d₁ := ((C120_determinate hO f₁ divs hf₁ hd).of_ok h₁).2
  have d₂ := ((C120_determinate hO f₂ divs hf₂ hd).of_ok h₂).2
  rw [hlin] at d
  obtain ⟨hq, hr⟩ := d.unique (d₁.linear d₂ a b)
  exact ⟨hr, fun i hi => congrFun hq ⟨i, hi⟩⟩

/-- C122. A monomial multiple of a divisor with no earlier divisor in its way leaves no remainder: the
dividend `h g_i` is given back as the quotient `h`. -/
theorem C122_multiple (hO : Implements O m) (f : Poly F) (divs : List (Poly F))
    (hf : Poly.Clean (Fin n) f) (hd : ∀ g ∈ divs, Poly.Clean (Fin n) g) (i : ℕ)
    (hi : i < divs.length) (hne : Poly.den (Fin n) divs[i] ≠ 0) (p : MvPolynomial (Fin n) K)
    (hfp : Poly.den (Fin n) f = p * Poly.den (Fin n) divs[i])
    (hfirst : ∀ e ∈ p.support, ∀ j < i, ∀ hj : j < divs.length, Poly.den (Fin n) divs[j] ≠ 0 →
      ¬ m.degree (Poly.den (Fin n) divs[j]) ≤ e + m.degree (Poly.den (Fin n) divs[i])) :
    Spec (PolyPanic F) (Computer.divide O f divs) (fun (r, qs) => Poly.den (Fin n) r = 0 ∧
      ∀ j < divs.length, Poly.den (Fin n) (qs.getD j []) = if j = i then p else 0) := by
  classical
  refine (C120_unique hO f divs hf hd (fun j => if (j : ℕ) = i then p else 0) 0 ?_).imp ?_
  · refine ⟨?_, by simp, fun j e he => ?_⟩
    · rw [add_zero, Finset.sum_eq_single ⟨i, hi⟩]
      · simp [hfp]
      · intro j _ hj
        rw [if_neg fun h => hj (Fin.ext h), zero_mul]
      · simp
    · by_cases hj : (j : ℕ) = i
      · rw [if_pos hj] at he
        obtain rfl : j = ⟨i, hi⟩ := Fin.ext hj
        exact ⟨hne, fun k hk => hfirst e he k hk k.2⟩
      · rw [if_neg hj] at he; simp at he
  · rintro ⟨r, qs⟩ ⟨h1, h2⟩
    exact ⟨h1, fun j hj => h2 ⟨j, hj⟩⟩

/-- The example of Cox, Little and O'Shea with the two divisors in either order: the monomials go to
whichever comes first, in descending order. -/
example : letI := Rational.field .debug
    (sampleOk 2 cloF ∧ sampleOk 2 cloG₁ ∧ sampleOk 2 cloG₂) ∧
    Computer.divide (OrdKind.lex.order .debug) cloF [cloG₁, cloG₂] =
      .ok ([⟨⟨1, 1⟩, [1]⟩, ⟨⟨1, 1⟩, [0, 1]⟩, ⟨⟨1, 1⟩, []⟩],
        [[⟨⟨1, 1⟩, [1]⟩, ⟨⟨1, 1⟩, [0, 1]⟩], [⟨⟨1, 1⟩, []⟩]]) ∧
    Computer.divide (OrdKind.lex.order .debug) cloF [cloG₂, cloG₁] =
      .ok ([⟨⟨2, 1⟩, [1]⟩, ⟨⟨1, 1⟩, []⟩],
        [[⟨⟨1, 1⟩, [1]⟩, ⟨⟨1, 1⟩, []⟩], [⟨⟨1, 1⟩, [1]⟩]]) := by
  refine ⟨clo_clean, ?_, ?_⟩
  · exact loop_eq_of_iter (n := 10) (by decide) (by simp)
  · exact loop_eq_of_iter (n := 10) (by decide) (by simp)

/-- The same dividend and divisors with their terms listed backwards, and the dividend in two parts
whose results add up. -/
example : letI := Rational.field .debug
    sampleOk 2 cloF.reverse ∧
    Computer.divide (OrdKind.lex.order .debug) cloF.reverse [cloG₁.reverse, cloG₂.reverse] =
      .ok ([⟨⟨1, 1⟩, [1]⟩, ⟨⟨1, 1⟩, [0, 1]⟩, ⟨⟨1, 1⟩, []⟩],
        [[⟨⟨1, 1⟩, [1]⟩, ⟨⟨1, 1⟩, [0, 1]⟩], [⟨⟨1, 1⟩, []⟩]]) ∧
    Computer.divide (OrdKind.lex.order .debug) [⟨⟨1, 1⟩, [2, 1]⟩] [cloG₁, cloG₂] =
      .ok ([⟨⟨1, 1⟩, [1]⟩], [[⟨⟨1, 1⟩, [1]⟩], []]) ∧
    Computer.divide (OrdKind.lex.order .debug) [⟨⟨1, 1⟩, [1, 2]⟩, ⟨⟨1, 1⟩, [0, 2]⟩] [cloG₁, cloG₂] =
      .ok ([⟨⟨1, 1⟩, [0, 1]⟩, ⟨⟨1, 1⟩, []⟩], [[⟨⟨1, 1⟩, [0, 1]⟩], [⟨⟨1, 1⟩, []⟩]]) := by
  refine ⟨by decide +kernel, ?_, ?_, ?_⟩
  · exact loop_eq_of_iter (n := 10) (by decide) (by simp)
  · exact loop_eq_of_iter (n := 10) (by decide) (by simp)
  · exact loop_eq_of_iter (n := 10) (by decide) (by simp)

end

end Verif
