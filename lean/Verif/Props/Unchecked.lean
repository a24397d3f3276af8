import Verif.Props.Comp
import Verif.Props.F64Poly
import Mathlib.Data.Nat.ModEq
import Mathlib.RingTheory.Ideal.Quotient.Operations

/-!
# Property C157: polynomials in builds without overflow checks

Without overflow checks the exponents of a product wrap around at 256.  So the arithmetic is that of
the polynomials modulo `x_i^256 = 1`.  The proofs evaluate at points whose coordinates satisfy this
equation, in an arbitrary algebra.
-/

namespace Verif
open Res MvPolynomial Computer

/-! ### Exponents -/

theorem MDeg.deg_append_of_lt {l r : List Nat} {i : ℕ} (h : i < l.length) :
    MDeg.deg (l ++ r) i = MDeg.deg l i := by
  unfold MDeg.deg; rw [List.getD_append _ _ _ _ h]

/-- The loop of `Add`, in both builds: what it returns is right modulo 256. -/
theorem MDeg.addLoop_mod (b : Build) (items : List (EitherOrBoth ℕ)) (z : ℕ) (degs : List ℕ) :
    Spec (fun p => b = .debug ∧ p = .overflowU8) (MDeg.addLoop b items z degs) (fun c =>
      ∀ i, MDeg.deg c i ≡ MDeg.deg (degs ++ List.replicate z 0 ++ items.map MDeg.itemSum) i
        [MOD 256]) := by
  induction items generalizing z degs with
  | nil =>
    intro i
    simp only [List.map_nil, List.append_nil]
    by_cases h : i < degs.length
    · rw [MDeg.deg_append_of_lt h]
    · rw [MDeg.deg_of_length_le (m := degs) (by omega)]
      unfold MDeg.deg
      rw [List.getD_append_right _ _ _ _ (by omega)]
      rcases lt_or_ge (i - degs.length) z with h' | h'
      · rw [List.getD_eq_getElem _ _ (by simpa using h')]; simp; rfl
      · rw [List.getD_eq_default _ _ (by simpa using h')]
  | cons x items ih =>
    have zero_case : MDeg.itemSum x = 0 → Spec (fun p => b = .debug ∧ p = .overflowU8)
        (MDeg.addLoop b items (z + 1) degs) (fun c => ∀ i, MDeg.deg c i ≡
          MDeg.deg (degs ++ List.replicate z 0 ++ (x :: items).map MDeg.itemSum) i [MOD 256]) := by
      intro h0
      have := ih (z + 1) degs
      have e : degs ++ List.replicate (z + 1) 0 ++ items.map MDeg.itemSum =
          degs ++ List.replicate z 0 ++ (x :: items).map MDeg.itemSum := by
        rw [List.replicate_succ', List.map_cons, h0]; simp
      rwa [e] at this
    have push : ∀ d, d ≡ MDeg.itemSum x [MOD 256] → Spec (fun p => b = .debug ∧ p = .overflowU8)
        (MDeg.addLoop b items 0 (degs ++ List.replicate z 0 ++ [d])) (fun c => ∀ i, MDeg.deg c i ≡
          MDeg.deg (degs ++ List.replicate z 0 ++ (x :: items).map MDeg.itemSum) i [MOD 256]) := by
      intro d hd
      refine (ih 0 (degs ++ List.replicate z 0 ++ [d])).imp fun c hc i => (hc i).trans ?_
      simp only [List.replicate_zero, List.append_nil, List.map_cons]
      generalize degs ++ List.replicate z 0 = l
      rw [List.append_assoc, List.singleton_append]
      by_cases h : i < l.length
      · rw [MDeg.deg_append_of_lt h, MDeg.deg_append_of_lt h]
      · unfold MDeg.deg
        rw [List.getD_append_right _ _ _ _ (by omega), List.getD_append_right _ _ _ _ (by omega)]
        cases i - l.length with
        | zero => simpa using hd
        | succ j => simp; rfl
    have norm : ∀ n, Spec (fun p => b = .debug ∧ p = .overflowU8) (U8.norm b n)
        (fun d => d ≡ n [MOD 256]) := by
      intro n
      unfold U8.norm
      split
      · exact rfl
      · cases b
        · exact ⟨rfl, rfl⟩
        · exact Nat.mod_modEq _ _
    unfold MDeg.addLoop
    split
    · exact zero_case rfl
    · exact zero_case rfl
    · exact zero_case rfl
    · exact (norm _).bind fun d hd => push d hd
    · exact push _ rfl
    · exact push _ rfl

/-- C157 for multidegrees: without overflow checks `+` returns, and every exponent of the result is
the sum of the exponents modulo 256. -/
theorem MDeg.add_mod (b : Build) (m r : MDeg) :
    Spec (fun p => b = .debug ∧ p = .overflowU8) (MDeg.add b m r)
      (fun c => ∀ i, MDeg.deg c i ≡ MDeg.deg m i + MDeg.deg r i [MOD 256]) := by
  refine (MDeg.addLoop_mod b (zipLongest m r) 0 []).imp fun c hc i => (hc i).trans ?_
  simp only [List.replicate_zero, List.nil_append]
  rw [← MDeg.zipWithLongest_add, MDeg.deg_zipWithLongest (by rfl)]

/-! ### Evaluation where `x_i^256 = 1` -/

section
variable {K R : Type} [Field K] [CommRing R] [Algebra K R] (a : ℕ → R)

/-- The value of a monomial. -/
noncomputable def mvalue (e : ℕ →₀ ℕ) : R := e.prod fun i k => a i ^ k

theorem mvalue_congr (ha : ∀ i, a i ^ 256 = 1) {e f : ℕ →₀ ℕ} (h : ∀ i, e i ≡ f i [MOD 256]) :
    mvalue a e = mvalue a f := by
  classical
  unfold mvalue
  rw [Finsupp.prod_of_support_subset e (s := e.support ∪ f.support) Finset.subset_union_left _
      (fun i _ => pow_zero _),
    Finsupp.prod_of_support_subset f (s := e.support ∪ f.support) Finset.subset_union_right _
      (fun i _ => pow_zero _)]
  refine Finset.prod_congr rfl fun i _ => ?_
  rw [pow_eq_pow_mod _ (ha i), h i, ← pow_eq_pow_mod _ (ha i)]

theorem mvalue_add (e f : ℕ →₀ ℕ) : mvalue a (e + f) = mvalue a e * mvalue a f :=
  Finsupp.prod_add_index' (fun _ => pow_zero _) fun _ => pow_add _

/-- The value of a term. -/
noncomputable def tvalue (t : Term K) : R := algebraMap K R t.coef * mvalue a (t.mdeg.toF ℕ)

/-- The value of a polynomial. -/
noncomputable def pvalue (p : Poly K) : R := (p.map (tvalue a)).sum

theorem pvalue_cons (t : Term K) (p : Poly K) : pvalue a (t :: p) = tvalue a t + pvalue a p := by
  simp [pvalue]

theorem pvalue_nil : pvalue a ([] : Poly K) = 0 := rfl

theorem pvalue_perm {p q : Poly K} (h : p.Perm q) : pvalue a p = pvalue a q :=
  (h.map _).sum_eq

variable {a} [DecidableEq K] (b : Build)

theorem tvalue_of_isZero {t : Term K} (h : @Term.isZero K (exactField b K) t = true) :
    tvalue a t = 0 := by
  have : t.coef = 0 := by simpa [Term.isZero, RField.beq, RField.zero] using h
  rw [tvalue, this, map_zero, zero_mul]

theorem Term.mul_value (ha : ∀ i, a i ^ 256 = 1) (s t : Term K) :
    letI := exactField b K
    Spec (fun p => b = .debug ∧ p = .overflowU8) (Term.mul s t)
      (fun u => tvalue a u = tvalue a s * tvalue a t) := by
  let _ := exactField b K
  unfold Term.mul
  split
  · rename_i h
    have h0 : tvalue a (Term.zero : Term K) = 0 := tvalue_of_isZero b (by simp [Term.isZero, Term.zero,
      Term.constantUnchecked, Term.newUnchecked, RField.beq])
    change tvalue a (Term.zero : Term K) = _
    rw [h0]
    rcases (Bool.or_eq_true _ _).mp h with h | h
    · rw [tvalue_of_isZero b h, zero_mul]
    · rw [tvalue_of_isZero b h, mul_zero]
  · change Spec _ (MDeg.add b s.mdeg t.mdeg >>= fun m => pure (Term.newUnchecked (s.coef * t.coef) m)) _
    refine (MDeg.add_mod b s.mdeg t.mdeg).bind fun c hc => ?_
    change tvalue a ⟨s.coef * t.coef, c⟩ = _
    unfold tvalue
    rw [mvalue_congr a ha (f := s.mdeg.toF ℕ + t.mdeg.toF ℕ) (fun i => hc i), mvalue_add, map_mul]
    ring

theorem Poly.mulTerm_value (ha : ∀ i, a i ^ 256 = 1) (p : Poly K) (t : Term K) :
    letI := exactField b K
    Spec (fun p => b = .debug ∧ p = .overflowU8) (Poly.mulTerm p t)
      (fun r => pvalue a r = pvalue a p * tvalue a t) := by
  let _ := exactField b K
  unfold Poly.mulTerm
  split
  · rename_i h
    change pvalue a [] = _
    rw [pvalue_nil]
    rcases (Bool.or_eq_true _ _).mp h with h | h
    · rw [tvalue_of_isZero b h, mul_zero]
    · rw [List.isEmpty_iff.mp h, pvalue_nil, zero_mul]
  · refine (mapM_spec fun s _ => Term.mul_value b ha s t).imp fun r hr => ?_
    rename_i h; clear h
    induction hr with
    | nil => rw [pvalue_nil, zero_mul]
    | cons h _ ih => rw [pvalue_cons, pvalue_cons, ih, h, add_mul]

theorem Poly.addTerm_value (p : Poly K) (t : Term K) :
    letI := exactField b K
    ∃ r, Poly.addTerm p t = .ok r ∧ pvalue a r = pvalue a p + tvalue a t := by
  let _ := exactField b K
  have key : ∀ p : Poly K, ∃ r, Poly.addNonzeroTerm p t = .ok r ∧
      pvalue a r = pvalue a p + tvalue a t := by
    intro p
    induction p with
    | nil => exact ⟨_, rfl, by rw [pvalue_cons, add_comm]⟩
    | cons s p ih =>
      rw [Poly.addNonzeroTerm]
      split
      · rename_i h
        have hv : tvalue a ⟨s.coef + t.coef, s.mdeg⟩ = tvalue a s + tvalue a t := by
          unfold tvalue
          rw [h, map_add, add_mul]
        change ∃ r, (if Term.isZero (⟨s.coef + t.coef, s.mdeg⟩ : Term K) then pure p else
          pure (⟨s.coef + t.coef, s.mdeg⟩ :: p)) = Res.ok r ∧ _
        split
        · rename_i h0
          refine ⟨_, rfl, ?_⟩
          rw [pvalue_cons, add_right_comm, ← hv, tvalue_of_isZero b h0, zero_add]
        · exact ⟨_, rfl, by rw [pvalue_cons, pvalue_cons, hv, add_right_comm]⟩
      · obtain ⟨r, h1, h2⟩ := ih
        rw [h1, bind_ok]
        exact ⟨_, rfl, by rw [pvalue_cons, pvalue_cons, h2, add_assoc]⟩
  unfold Poly.addTerm
  split
  · rename_i h
    refine ⟨_, rfl, ?_⟩
    rw [List.isEmpty_iff.mp h, pvalue_nil, zero_add]
    unfold Poly.ofTerm
    split
    · rename_i h0; rw [tvalue_of_isZero b h0]; rfl
    · exact (pvalue_cons a t []).trans (by rw [pvalue_nil, add_zero])
  · split
    · rename_i h0
      exact ⟨_, rfl, by rw [tvalue_of_isZero b h0, add_zero]⟩
    · exact key p

theorem Poly.add_value (p q : Poly K) :
    letI := exactField b K
    ∃ r, Poly.add p q = .ok r ∧ pvalue a r = pvalue a p + pvalue a q := by
  let _ := exactField b K
  unfold Poly.add
  induction q generalizing p with
  | nil => exact ⟨p, rfl, by rw [pvalue_nil, add_zero]⟩
  | cons t q ih =>
    obtain ⟨r, h1, h2⟩ := Poly.addTerm_value (a := a) b p t
    rw [List.foldlM_cons, h1, bind_ok]
    obtain ⟨r', h3, h4⟩ := ih r
    exact ⟨r', h3, by rw [h4, h2, pvalue_cons, add_assoc]⟩

theorem Poly.neg_value (p : Poly K) :
    letI := exactField b K
    ∃ r, Poly.neg p = .ok r ∧ pvalue a r = - pvalue a p := by
  let _ := exactField b K
  unfold Poly.neg
  induction p with
  | nil => exact ⟨[], rfl, by rw [pvalue_nil, neg_zero]⟩
  | cons t p ih =>
    obtain ⟨r, h1, h2⟩ := ih
    refine ⟨⟨-t.coef, t.mdeg⟩ :: r, ?_, ?_⟩
    · rw [List.mapM_cons, h1]; rfl
    · rw [pvalue_cons, pvalue_cons, h2]
      unfold tvalue
      rw [map_neg]
      ring

theorem Poly.sub_value (p q : Poly K) :
    letI := exactField b K
    ∃ r, Poly.sub p q = .ok r ∧ pvalue a r = pvalue a p - pvalue a q := by
  let _ := exactField b K
  obtain ⟨r, h1, h2⟩ := Poly.neg_value (a := a) b q
  obtain ⟨r', h3, h4⟩ := Poly.add_value (a := a) b p r
  exact ⟨r', by rw [Poly.sub, h1, bind_ok, h3], by rw [h4, h2, sub_eq_add_neg]⟩

theorem Poly.mul_value (ha : ∀ i, a i ^ 256 = 1) (p q : Poly K) :
    letI := exactField b K
    Spec (fun p => b = .debug ∧ p = .overflowU8) (Poly.mul p q)
      (fun r => pvalue a r = pvalue a p * pvalue a q) := by
  let _ := exactField b K
  unfold Poly.mul
  refine (reduceM_spec (M := R) (vs := p.map fun t => pvalue a q * tvalue a t)
    (fun v r => pvalue a r = v) (pvalue_nil a) ?_ ?_).imp fun r hr => ?_
  · rintro v w x y rfl rfl
    obtain ⟨r, h1, h2⟩ := Poly.add_value (a := a) b x y
    rw [h1]; exact h2
  · induction p with
    | nil => simp
    | cons t p ih => exact List.Forall₂.cons (Poly.mulTerm_value b ha q t) ih
  · rw [hr, List.sum_map_mul_left, mul_comm]; rfl

/-! ### Division -/

theorem insertBy_perm {α : Type} {cmp : α → α → Res Ordering} {x : α} {l r : List α}
    (h : insertBy cmp x l = .ok r) : r.Perm (x :: l) := by
  induction l generalizing r with
  | nil => rw [insertBy] at h; cases h; exact .refl _
  | cons y l ih =>
    rw [insertBy] at h
    obtain ⟨o, -, h⟩ := bind_eq_ok.mp h
    cases o with
    | lt => cases h; exact .refl _
    | eq | gt =>
      obtain ⟨ys, h1, h⟩ := bind_eq_ok.mp h
      cases h
      exact ((ih h1).cons y).trans (.swap x y l)

theorem sortBy_perm {α : Type} {cmp : α → α → Res Ordering} {l r : List α}
    (h : sortBy cmp l = .ok r) : r.Perm l := by
  have : ∀ (l acc r : List α), l.foldlM (fun acc x => insertBy cmp x acc) acc = .ok r →
      r.Perm (l ++ acc) := by
    intro l
    induction l with
    | nil => intro acc r h; cases h; exact .refl _
    | cons x l ih =>
      intro acc r h
      rw [List.foldlM_cons] at h
      obtain ⟨acc', h1, h⟩ := bind_eq_ok.mp h
      refine (ih _ _ h).trans (((insertBy_perm h1).append_left l).trans ?_)
      exact List.perm_middle
  simpa using this l [] r h

/-- The value of the sum of the products of a list of pairs. -/
noncomputable def cvalue (a : ℕ → R) (l : List (Poly K × Poly K)) : R :=
  (l.map fun x => pvalue a x.1 * pvalue a x.2).sum

theorem divideFor_value (ha : ∀ i, a i ^ 256 = 1) (O : MOrder) (lt : Term K) (f : Poly K)
    (l : List (Poly K × Poly K)) (qs : List (Poly K)) (f' : Poly K)
    (h : letI := exactField b K; divideFor O lt f l = .ok (some (qs, f'))) :
    qs.length = l.length ∧
    pvalue a f + cvalue a l = pvalue a f' + cvalue a ((l.map (·.1)).zip qs) := by
  let _ := exactField b K
  induction l generalizing qs f' with
  | nil => cases h
  | cons x l ih =>
    obtain ⟨g, q⟩ := x
    have hnext : (do
        match ← divideFor O lt f l with
        | none => pure none
        | some (qs, f') => pure (some (q :: qs, f'))) = Res.ok (some (qs, f')) →
        qs.length = ((g, q) :: l).length ∧ pvalue a f + cvalue a ((g, q) :: l) =
          pvalue a f' + cvalue a ((((g, q) :: l).map (·.1)).zip qs) := by
      intro h
      obtain ⟨o, h1, h⟩ := bind_eq_ok.mp h
      rcases o with _ | ⟨qs', f''⟩
      · cases h
      · cases h
        obtain ⟨h2, h3⟩ := ih _ _ h1
        refine ⟨by simp [h2], ?_⟩
        simp only [cvalue, List.map_cons, List.zip_cons_cons, List.sum_cons] at h3 ⊢
        rw [add_left_comm, h3, add_left_comm]
    rw [divideFor] at h
    obtain ⟨o, h1, h⟩ := bind_eq_ok.mp h
    rcases o with _ | ltG
    · exact hnext h
    · obtain ⟨o, h2, h⟩ := bind_eq_ok.mp h
      rcases o with _ | t
      · exact hnext h
      · obtain ⟨q', h3, h⟩ := bind_eq_ok.mp h
        obtain ⟨ag, h4, h⟩ := bind_eq_ok.mp h
        obtain ⟨f'', h5, h⟩ := bind_eq_ok.mp h
        cases h
        obtain ⟨_, e1, e2⟩ := Poly.addTerm_value (a := a) b q t
        rw [h3] at e1; cases e1
        have e3 := Spec.of_ok (Poly.mulTerm_value b ha g t) h4
        obtain ⟨_, e4, e5⟩ := Poly.sub_value (a := a) b f ag
        rw [h5] at e4; cases e4
        refine ⟨by simp, ?_⟩
        have hz : (l.map (·.1)).zip (l.map (·.2)) = l := by
          rw [List.zip_map', List.map_id'']; intro x; rfl
        simp only [cvalue, List.map_cons, List.zip_cons_cons, List.sum_cons]
        rw [hz, e5, e2, e3]
        ring

/-- `divide`, in both builds and for every comparison of multidegrees: if it returns, the identity
holds where `x_i^256 = 1`. -/
theorem divide_value (ha : ∀ i, a i ^ 256 = 1) (O : MOrder) (f : Poly K) (divs : List (Poly K))
    (r : Poly K) (qs : List (Poly K))
    (h : letI := exactField b K; divide O f divs = .ok (r, qs)) :
    qs.length = divs.length ∧ pvalue a f = cvalue a (divs.zip qs) + pvalue a r := by
  let _ := exactField b K
  have := loop_partial (step := divideStep O divs)
    (fun s => s.quotients.length = divs.length ∧
      pvalue a f = pvalue a s.f + cvalue a (divs.zip s.quotients) + pvalue a s.remainder)
    (fun x => x.2.length = divs.length ∧ pvalue a f = cvalue a (divs.zip x.2) + pvalue a x.1)
    ?_ ?_ ?_ h
  · exact this
  · rintro ⟨g, q, r⟩ s' ⟨hl, hv⟩ hs
    dsimp only at hl hv
    rw [divideStep] at hs
    obtain ⟨o, h1, hs⟩ := bind_eq_ok.mp hs
    rcases o with _ | lt
    · cases hs
    · obtain ⟨o, h2, hs⟩ := bind_eq_ok.mp hs
      rcases o with _ | ⟨qs', f'⟩
      · obtain ⟨sorted, h3, hs⟩ := bind_eq_ok.mp hs
        have hp := pvalue_perm a (sortBy_perm h3)
        dsimp only at hs
        rcases hgl : sorted.getLast? with _ | lt'
        · rw [hgl] at hs
          cases hs
          exact ⟨hl, by rw [hv, hp]⟩
        · rw [hgl] at hs
          obtain ⟨r', h4, hs⟩ := bind_eq_ok.mp hs
          cases hs
          obtain ⟨_, e1, e2⟩ := Poly.addTerm_value (a := a) b r lt'
          rw [h4] at e1; cases e1
          refine ⟨hl, ?_⟩
          dsimp only
          obtain ⟨ys, rfl⟩ := List.getLast?_eq_some_iff.mp hgl
          rw [hv, ← hp, e2, List.dropLast_concat]
          simp only [pvalue, List.map_append, List.sum_append, List.map_cons, List.map_nil,
            List.sum_cons, List.sum_nil]
          ring
      · cases hs
        obtain ⟨e1, e2⟩ := divideFor_value (a := a) b ha O lt g _ _ _ h2
        have hz : (divs.zip q).map (·.1) = divs := by
          rw [List.map_fst_zip]; exact hl.ge
        rw [hz] at e2
        have e1 : qs'.length = min divs.length q.length := by rw [e1, List.length_zip]
        exact ⟨by dsimp only; omega, by dsimp only; rw [hv, e2]⟩
  · rintro ⟨g, q, r⟩ x ⟨hl, hv⟩ hs
    dsimp only at hl hv
    rw [divideStep] at hs
    obtain ⟨o, h1, hs⟩ := bind_eq_ok.mp hs
    rcases o with _ | lt
    · cases hs
      have : g = [] := by
        cases g with
        | nil => rfl
        | cons t g =>
          exfalso
          change (some <$> _ : Res (Option (Term K))) = _ at h1
          obtain ⟨y, -, h1⟩ := bind_eq_ok.mp h1
          cases h1
      subst this
      exact ⟨hl, by rw [hv, pvalue_nil, zero_add]⟩
    · obtain ⟨o, h2, hs⟩ := bind_eq_ok.mp hs
      rcases o with _ | ⟨qs', f'⟩
      · obtain ⟨sorted, h3, hs⟩ := bind_eq_ok.mp hs
        dsimp only at hs
        rcases hgl : sorted.getLast? with _ | lt' <;> rw [hgl] at hs
        · cases hs
        · obtain ⟨r', h4, hs⟩ := bind_eq_ok.mp hs
          cases hs
      · cases hs
  · refine ⟨by simp, ?_⟩
    have : cvalue a (divs.zip (List.replicate divs.length Poly.zero)) = 0 := by
      unfold cvalue
      refine List.sum_eq_zero fun x hx => ?_
      obtain ⟨⟨g, q⟩, hm, rfl⟩ := List.mem_map.mp hx
      have := (List.mem_replicate.mp (List.of_mem_zip hm).2).2
      dsimp only
      rw [this, Poly.zero, Poly.newUnchecked, pvalue_nil, mul_zero]
    dsimp only
    rw [this, Poly.zero, Poly.newUnchecked, pvalue_nil, add_zero, add_zero]

/-! ### Buchberger's algorithm -/

theorem tryReduce_value (ha : ∀ i, a i ^ 256 = 1) (O : MOrder) (f g s : Poly K)
    (h : letI := exactField b K; tryReduce O f g = .ok (some s)) (hf : pvalue a f = 0)
    (hg : pvalue a g = 0) : pvalue a s = 0 := by
  let _ := exactField b K
  rw [tryReduce] at h
  obtain ⟨o, -, h⟩ := bind_eq_ok.mp h
  rcases o with _ | ltF
  · cases h
  obtain ⟨o, -, h⟩ := bind_eq_ok.mp h
  rcases o with _ | ltG
  · cases h
  obtain ⟨o, -, h⟩ := bind_eq_ok.mp h
  rcases o with _ | x
  · cases h
  obtain ⟨af, h1, h⟩ := bind_eq_ok.mp h
  obtain ⟨o, -, h⟩ := bind_eq_ok.mp h
  rcases o with _ | y
  · cases h
  obtain ⟨bg, h2, h⟩ := bind_eq_ok.mp h
  obtain ⟨s', h3, h⟩ := bind_eq_ok.mp h
  cases h
  have e1 := Spec.of_ok (Poly.mulTerm_value b ha f x) h1
  have e2 := Spec.of_ok (Poly.mulTerm_value b ha g y) h2
  obtain ⟨_, e3, e4⟩ := Poly.sub_value (a := a) b af bg
  rw [h3] at e3; cases e3
  rw [e4, e1, e2, hf, hg, zero_mul, zero_mul, sub_zero]

theorem index_mem {α : Type} {l : List α} {i : ℕ} {x : α} (h : index l i = .ok x) : x ∈ l := by
  unfold index at h
  split at h
  · rename_i h'; cases h; exact List.mem_of_getElem? h'
  · cases h

theorem extendFor_value (ha : ∀ i, a i ^ 256 = 1) (O : MOrder) (gens : List (Poly K)) (i : ℕ)
    (js : List ℕ) (r : Poly K)
    (h : letI := exactField b K; extendFor O gens i js = .ok (some r))
    (hg : ∀ g ∈ gens, pvalue a g = 0) : pvalue a r = 0 := by
  let _ := exactField b K
  induction js with
  | nil => cases h
  | cons j js ih =>
    rw [extendFor] at h
    obtain ⟨gi, h1, h⟩ := bind_eq_ok.mp h
    obtain ⟨gj, h2, h⟩ := bind_eq_ok.mp h
    obtain ⟨o, h3, h⟩ := bind_eq_ok.mp h
    rcases o with _ | s
    · cases h
    obtain ⟨⟨r', qs⟩, h4, h⟩ := bind_eq_ok.mp h
    obtain ⟨o, h5, h⟩ := bind_eq_ok.mp h
    rcases o with _ | c
    · exact ih h
    obtain ⟨r'', h6, h⟩ := bind_eq_ok.mp h
    cases h
    have e1 := tryReduce_value b ha O gi gj s h3 (hg _ (index_mem h1)) (hg _ (index_mem h2))
    obtain ⟨-, e2⟩ := divide_value b ha O s gens r' qs h4
    have e3 : cvalue a (gens.zip qs) = 0 := by
      refine List.sum_eq_zero fun x hx => ?_
      obtain ⟨⟨g, q⟩, hm, rfl⟩ := List.mem_map.mp hx
      dsimp only
      rw [hg g (List.of_mem_zip hm).1, zero_mul]
    rw [e1, e3, zero_add] at e2
    rw [Poly.divCoef] at h6
    obtain ⟨d, -, h6⟩ := bind_eq_ok.mp h6
    rw [Spec.of_ok (Poly.mulTerm_value b ha r' _) h6, ← e2, zero_mul]

theorem extend_value (ha : ∀ i, a i ^ 256 = 1) (O : MOrder) (gens G : List (Poly K))
    (h : letI := exactField b K; buchbergerExtend O gens = .ok G) :
    (∃ l, G = gens ++ l) ∧ ((∀ g ∈ gens, pvalue a g = 0) → ∀ g ∈ G, pvalue a g = 0) := by
  let _ := exactField b K
  refine loop_partial (step := extendStep O)
    (fun s => (∃ l, s.1 = gens ++ l) ∧ ((∀ g ∈ gens, pvalue a g = 0) → ∀ g ∈ s.1, pvalue a g = 0))
    (fun G => (∃ l, G = gens ++ l) ∧ ((∀ g ∈ gens, pvalue a g = 0) → ∀ g ∈ G, pvalue a g = 0))
    ?_ ?_ ⟨⟨[], by simp⟩, fun h => h⟩ h
  · rintro ⟨G, i⟩ s' ⟨⟨l, hl⟩, hv⟩ hs
    unfold extendStep at hs
    split at hs
    · obtain ⟨o, h1, hs⟩ := bind_eq_ok.mp hs
      rcases o with _ | r
      · cases hs; exact ⟨⟨l, hl⟩, hv⟩
      · cases hs
        refine ⟨⟨l ++ [r], by dsimp only at hl ⊢; rw [hl, List.append_assoc]⟩, fun hg g hm => ?_⟩
        rcases List.mem_append.mp hm with hm | hm
        · exact hv hg g hm
        · rw [List.mem_singleton.mp hm]
          exact extendFor_value b ha O G i _ r h1 (hv hg)
    · cases hs
  · rintro ⟨G, i⟩ r hI hs
    unfold extendStep at hs
    split at hs
    · obtain ⟨o, h1, hs⟩ := bind_eq_ok.mp hs
      rcases o with _ | r <;> cases hs
    · cases hs; exact hI

/-! ### The theorems -/

/-- The ideal generated by all `x_i^256 - 1`. -/
noncomputable def wrapIdeal (K : Type) [Field K] : Ideal (MvPolynomial ℕ K) :=
  Ideal.span (Set.range fun i => X i ^ 256 - 1)

theorem pvalue_eq (a : ℕ → R) (p : Poly K) :
    letI := exactField .debug K
    letI := exactLawful K
    pvalue a p = aeval a (Poly.den ℕ p : MvPolynomial ℕ K) := by
  let _ := exactField .debug K
  let _ := exactLawful K
  induction p with
  | nil => simp [pvalue_nil]
  | cons t p ih =>
    rw [pvalue_cons, Poly.den_cons, map_add, ih]
    congr 1
    exact (aeval_monomial a _ _).symm

theorem pvalue_X (p : Poly K) :
    letI := exactField .debug K
    letI := exactLawful K
    pvalue (R := MvPolynomial ℕ K) X p = Poly.den ℕ p := by
  let _ := exactField .debug K
  let _ := exactLawful K
  rw [pvalue_eq, aeval_X_left_apply]

theorem pvalue_mk (I : Ideal (MvPolynomial ℕ K)) (p : Poly K) :
    letI := exactField .debug K
    letI := exactLawful K
    pvalue (fun i => Ideal.Quotient.mk I (X i)) p = Ideal.Quotient.mk I (Poly.den ℕ p) := by
  let _ := exactField .debug K
  let _ := exactLawful K
  rw [pvalue_eq]
  exact DFunLike.congr_fun (show aeval (fun i => Ideal.Quotient.mk I (X i)) =
    Ideal.Quotient.mkₐ K I by ext i; simp) _

omit [DecidableEq K] in
theorem mk_pow {I : Ideal (MvPolynomial ℕ K)} (hI : wrapIdeal K ≤ I) (i : ℕ) :
    Ideal.Quotient.mk I (X i) ^ 256 = 1 := by
  rw [← map_pow, ← map_one (Ideal.Quotient.mk I), Ideal.Quotient.eq]
  exact hI (Ideal.subset_span ⟨i, rfl⟩)

/-- C157. Without overflow checks sums, differences and negatives of polynomials over an exact field
are exact; no canonical form is needed. -/
theorem C157_add (p q : Poly K) :
    letI := exactField .debug K
    letI := exactLawful K
    (∃ r, @Poly.add K (exactField .release K) p q = .ok r ∧
      Poly.den ℕ r = (Poly.den ℕ p + Poly.den ℕ q : MvPolynomial ℕ K)) ∧
    (∃ r, @Poly.sub K (exactField .release K) p q = .ok r ∧
      Poly.den ℕ r = (Poly.den ℕ p - Poly.den ℕ q : MvPolynomial ℕ K)) ∧
    (∃ r, @Poly.neg K (exactField .release K) p = .ok r ∧
      Poly.den ℕ r = (- Poly.den ℕ p : MvPolynomial ℕ K)) := by
  refine ⟨?_, ?_, ?_⟩
  · obtain ⟨r, h1, h2⟩ := Poly.add_value (a := (X : ℕ → MvPolynomial ℕ K)) .release p q
    exact ⟨r, h1, by rwa [pvalue_X, pvalue_X, pvalue_X] at h2⟩
  · obtain ⟨r, h1, h2⟩ := Poly.sub_value (a := (X : ℕ → MvPolynomial ℕ K)) .release p q
    exact ⟨r, h1, by rwa [pvalue_X, pvalue_X, pvalue_X] at h2⟩
  · obtain ⟨r, h1, h2⟩ := Poly.neg_value (a := (X : ℕ → MvPolynomial ℕ K)) .release p
    exact ⟨r, h1, by rwa [pvalue_X, pvalue_X] at h2⟩

/-- C157. Without overflow checks products of polynomials over an exact field are exact modulo
`x_i^256 = 1`. -/
theorem C157_mul (p q : Poly K) :
    letI := exactField .debug K
    letI := exactLawful K
    ∃ r, @Poly.mul K (exactField .release K) p q = .ok r ∧
      (Poly.den ℕ r - Poly.den ℕ p * Poly.den ℕ q : MvPolynomial ℕ K) ∈ wrapIdeal K := by
  obtain ⟨r, h1, h2⟩ := ((Poly.mul_value .release (mk_pow (le_refl (wrapIdeal K))) p q).mono
    (E' := fun _ => False) (fun p h => by cases h.1) fun _ h => h).total
  refine ⟨r, h1, ?_⟩
  rw [pvalue_mk, pvalue_mk, pvalue_mk, ← map_mul] at h2
  exact Ideal.Quotient.eq.mp h2

/-- C157. Without overflow checks, whatever `divide` returns over an exact field satisfies
`f = q_1 g_1 + … + q_m g_m + r` modulo `x_i^256 = 1`, for every comparison of multidegrees. -/
theorem C157_divide (O : MOrder) (f : Poly K) (divs : List (Poly K)) (r : Poly K)
    (qs : List (Poly K)) :
    letI := exactField .debug K
    letI := exactLawful K
    @divide K (exactField .release K) O f divs = .ok (r, qs) →
    qs.length = divs.length ∧
    (Poly.den ℕ f - ((List.zipWith (fun q g => Poly.den ℕ q * Poly.den ℕ g) qs divs).sum +
      Poly.den ℕ r) : MvPolynomial ℕ K) ∈ wrapIdeal K := by
  let _ := exactField .debug K
  let _ := exactLawful K
  intro h
  obtain ⟨h1, h2⟩ := divide_value .release (mk_pow (le_refl (wrapIdeal K))) O f divs r qs h
  refine ⟨h1, Ideal.Quotient.eq.mp ?_⟩
  rw [pvalue_mk, pvalue_mk] at h2
  rw [h2, map_add, map_list_sum]
  congr 1
  unfold cvalue
  rw [List.zipWith_comm, ← List.map_uncurry_zip_eq_zipWith, List.map_map]
  congr 1
  refine List.map_congr_left fun x _ => ?_
  simp only [Function.comp, Function.uncurry]
  rw [pvalue_mk, pvalue_mk, map_mul, mul_comm]

/-- C157. Without overflow checks, `buchberger_extend` over an exact field only appends, and the
polynomials it appends are in the ideal of the generators modulo `x_i^256 = 1`. -/
theorem C157_extend (O : MOrder) (gens G : List (Poly K)) :
    letI := exactField .debug K
    letI := exactLawful K
    @buchbergerExtend K (exactField .release K) O gens = .ok G →
    (∃ l, G = gens ++ l) ∧
    Ideal.span (dens ℕ G) ⊔ wrapIdeal K = (Ideal.span (dens ℕ gens) ⊔ wrapIdeal K :
      Ideal (MvPolynomial ℕ K)) := by
  let _ := exactField .debug K
  let _ := exactLawful K
  intro h
  set I : Ideal (MvPolynomial ℕ K) := Ideal.span (dens ℕ gens) ⊔ wrapIdeal K with hI
  obtain ⟨h1, h2⟩ := extend_value .release (mk_pow (I := I) le_sup_right) O gens G h
  refine ⟨h1, le_antisymm (sup_le (Ideal.span_le.mpr ?_) le_sup_right)
    (sup_le ((Ideal.span_mono ?_).trans le_sup_left) le_sup_right)⟩
  · rintro _ ⟨g, hg, rfl⟩
    have := h2 (fun g hg => by
      rw [pvalue_mk, Ideal.Quotient.eq_zero_iff_mem]
      exact le_sup_left (a := Ideal.span (dens ℕ gens)) (Ideal.subset_span ⟨g, hg, rfl⟩)) g hg
    rwa [pvalue_mk, Ideal.Quotient.eq_zero_iff_mem] at this
  · rintro _ ⟨g, hg, rfl⟩
    obtain ⟨l, rfl⟩ := h1
    exact ⟨g, List.mem_append_left _ hg, rfl⟩

end

/-- `x^200 y · x^100 (1 + y)` is `x^44 (y + y^2)`; the exponent 256 becomes a multidegree that is not
canonical; and a division with a wrapped exponent. -/
example : letI := exactField .release ℚ
    Poly.mul [⟨1, [200, 1]⟩] [⟨1, [100]⟩, ⟨1, [100, 1]⟩] =
      .ok [⟨1, [44, 1]⟩, ⟨(1 : ℚ), [44, 2]⟩] ∧
    Poly.mul [⟨1, [128]⟩] [⟨(1 : ℚ), [128]⟩] = .ok [⟨1, [0]⟩] ∧
    divide MOrder.lex [⟨1, [1, 255]⟩] [[⟨1, [1]⟩, ⟨(1 : ℚ), [0, 3]⟩]] =
      .ok ([⟨-1, [0, 2]⟩], [[⟨1, [0, 255]⟩]]) := by
  let _ := exactField .release ℚ
  refine ⟨by decide +kernel, by decide +kernel, ?_⟩
  exact loop_eq_of_iter (n := 10) (by decide +kernel) (by simp)

end Verif
