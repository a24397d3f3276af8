import Verif.Props.Raw
import Verif.Props.Ideal

/-!
# Property C175: Buchberger's algorithm on generators that are not in canonical form

For arbitrary lists of terms and every comparison of multidegrees, the first and the last phase keep
the ideal; the second phase, which drops generators by their leading terms, does not.
-/

namespace Verif
open Res MvPolynomial LawfulRField Computer

section
variable {F : Type} [RField F]

theorem addNonzeroTerm_nonzero {p r : Poly F} {t : Term F} (hp : ∀ u ∈ p, u.isZero = false)
    (ht : t.isZero = false) (h : Poly.addNonzeroTerm p t = .ok r) : ∀ u ∈ r, u.isZero = false := by
  induction p generalizing r with
  | nil => cases h; simpa using ht
  | cons a p ih =>
    unfold Poly.addNonzeroTerm at h
    split at h
    · obtain ⟨c, -, h⟩ := bind_eq_ok.mp h
      dsimp only at h
      split at h
      · cases h; exact fun u hu => hp u (by simp [hu])
      · rename_i hz
        cases h
        intro u hu
        rcases List.mem_cons.mp hu with rfl | hu
        · simpa using hz
        · exact hp u (by simp [hu])
    · obtain ⟨ts, h1, h⟩ := bind_eq_ok.mp h
      cases h
      intro u hu
      rcases List.mem_cons.mp hu with rfl | hu
      · exact hp u (by simp)
      · exact ih (fun u hu => hp u (by simp [hu])) h1 u hu

theorem addTerm_nonzero {p r : Poly F} {t : Term F} (hp : ∀ u ∈ p, u.isZero = false)
    (h : Poly.addTerm p t = .ok r) : ∀ u ∈ r, u.isZero = false := by
  unfold Poly.addTerm at h
  split at h
  · cases h
    unfold Poly.ofTerm
    split
    · simp [Poly.zero, Poly.newUnchecked]
    · rename_i hz
      intro u hu
      have : u = t := by simpa [Poly.termUnchecked, Poly.newUnchecked] using hu
      subst this
      simpa using hz
  · split at h
    · cases h; exact hp
    · rename_i hz
      exact addNonzeroTerm_nonzero hp (by simpa using hz) h

/-- The remainder of `divide` has no zero coefficients, whatever the operands. -/
theorem divide_nonzero {O : MOrder} {f : Poly F} {divs : List (Poly F)} {r : Poly F}
    {qs : List (Poly F)} (h : divide O f divs = .ok (r, qs)) : ∀ u ∈ r, u.isZero = false := by
  refine loop_partial (step := divideStep O divs) (fun s => ∀ u ∈ s.remainder, u.isZero = false)
    (fun x => ∀ u ∈ x.1, u.isZero = false) ?_ ?_ (by simp [Poly.zero, Poly.newUnchecked]) h
  · rintro ⟨g, q, r⟩ s' hr hs
    dsimp only at hr
    rw [divideStep] at hs
    obtain ⟨o, h1, hs⟩ := bind_eq_ok.mp hs
    rcases o with _ | lt
    · cases hs
    · obtain ⟨o, h2, hs⟩ := bind_eq_ok.mp hs
      rcases o with _ | ⟨qs', f'⟩
      · obtain ⟨sorted, h3, hs⟩ := bind_eq_ok.mp hs
        dsimp only at hs
        rcases hgl : sorted.getLast? with _ | lt' <;> rw [hgl] at hs
        · cases hs; exact hr
        · obtain ⟨r', h4, hs⟩ := bind_eq_ok.mp hs
          cases hs
          exact addTerm_nonzero hr h4
      · cases hs; exact hr
  · rintro ⟨g, q, r⟩ x hr hs
    dsimp only at hr
    rw [divideStep] at hs
    obtain ⟨o, h1, hs⟩ := bind_eq_ok.mp hs
    rcases o with _ | lt
    · cases hs; exact hr
    · obtain ⟨o, h2, hs⟩ := bind_eq_ok.mp hs
      rcases o with _ | ⟨qs', f'⟩
      · obtain ⟨sorted, h3, hs⟩ := bind_eq_ok.mp hs
        dsimp only at hs
        rcases hgl : sorted.getLast? with _ | lt' <;> rw [hgl] at hs
        · cases hs
        · obtain ⟨r', h4, hs⟩ := bind_eq_ok.mp hs
          cases hs
      · cases hs

end

section
variable {F : Type} [RField F] {K : Type} [Field K] [LawfulRField F K]

theorem lcmMDeg_lt {a b : MDeg} (ha : ∀ d ∈ a, d < 256) (hb : ∀ d ∈ b, d < 256) :
    ∀ d ∈ lcmMDeg a b, d < 256 := by
  have key : ∀ a b : List ℕ, (∀ d ∈ a, d < 256) → (∀ d ∈ b, d < 256) → ∀ x ∈ zipLongest a b,
      (match x with | .both a b => max a b | .left a => a | .right b => b) < 256 := by
    intro a
    induction a with
    | nil =>
      intro b _ hb x hx
      simp only [MDeg.zipLongest_nil_left, List.mem_map] at hx
      obtain ⟨d, hd, rfl⟩ := hx
      exact hb d hd
    | cons y ys ih =>
      intro b ha hb x hx
      cases b with
      | nil =>
        simp only [MDeg.zipLongest_nil_right, List.mem_map] at hx
        obtain ⟨d, hd, rfl⟩ := hx
        exact ha d hd
      | cons z zs =>
        rw [zipLongest, List.mem_cons] at hx
        rcases hx with rfl | hx
        · exact max_lt (ha y (by simp)) (hb z (by simp))
        · exact ih zs (fun d hd => ha d (by simp [hd])) (fun d hd => hb d (by simp [hd])) x hx
  intro d hd
  obtain ⟨x, hx, rfl⟩ := List.mem_map.mp hd
  exact key a b ha hb x hx

theorem monicLcm_raw {s t : Term F} (hs : s.Raw) (ht : t.Raw) : (monicLcm s t).Raw := by
  unfold monicLcm
  split
  · exact Term.raw_zero
  · exact ⟨wf_one, lcmMDeg_lt hs.lt ht.lt⟩

/-- C175. What `try_reduce` returns is a combination of its operands, in canonical form or not. -/
theorem C175_try_reduce (O : MOrder) {f g s : Poly F} (hf : Poly.Raw f) (hg : Poly.Raw g)
    (h : tryReduce O f g = .ok (some s)) :
    Poly.Raw s ∧ ∃ a b : MvPolynomial ℕ K, Poly.den ℕ s = a * Poly.den ℕ f - b * Poly.den ℕ g := by
  unfold tryReduce at h
  obtain ⟨o, h1, h⟩ := bind_eq_ok.mp h
  rcases o with _ | ltF
  · cases h
  obtain ⟨o, h2, h⟩ := bind_eq_ok.mp h
  rcases o with _ | ltG
  · cases h
  have hF : ltF.Raw := hf _ (maxBy_mem _ h1 ltF rfl)
  have hG : ltG.Raw := hg _ (maxBy_mem _ h2 ltG rfl)
  have hL := monicLcm_raw hF hG
  dsimp only at h
  obtain ⟨o, h3, h⟩ := bind_eq_ok.mp h
  rcases o with _ | a
  · cases h
  obtain ⟨af, h4, h⟩ := bind_eq_ok.mp h
  obtain ⟨o, h5, h⟩ := bind_eq_ok.mp h
  rcases o with _ | b
  · cases h
  obtain ⟨bg, h6, h⟩ := bind_eq_ok.mp h
  obtain ⟨s', h7, h⟩ := bind_eq_ok.mp h
  cases h
  have ha := Term.tryDiv_raw hL hF h3
  have hb := Term.tryDiv_raw hL hG h5
  obtain ⟨e1, e2⟩ := Spec.of_ok (C170_mulTerm (E := fun _ => True) hf ha (fun _ _ => trivial)
    (Or.inl trivial)) h4
  obtain ⟨e3, e4⟩ := Spec.of_ok (C170_mulTerm (E := fun _ => True) hg hb (fun _ _ => trivial)
    (Or.inl trivial)) h6
  obtain ⟨e5, e6⟩ := Spec.of_ok (C170_sub e1 e3 Term.raw_zero).1 h7
  exact ⟨e5, a.den ℕ, b.den ℕ, by rw [e6, e2, e4]; ring⟩

theorem divide_mem {O : MOrder} {f : Poly F} {divs : List (Poly F)} (hf : Poly.Raw f)
    (hd : ∀ g ∈ divs, Poly.Raw g) {r : Poly F} {qs : List (Poly F)}
    (h : divide O f divs = .ok (r, qs)) :
    Poly.Raw r ∧ Poly.den ℕ f - Poly.den ℕ r ∈ Ideal.span (dens ℕ divs : Set (MvPolynomial ℕ K)) := by
  obtain ⟨-, -, h1, h2⟩ := C170_divide (K := K) O hf hd h
  refine ⟨h1, ?_⟩
  rw [h2, add_sub_cancel_right]
  refine list_sum_mem fun x hx => ?_
  obtain ⟨i, hi, rfl⟩ := List.mem_iff_getElem.mp hx
  rw [List.getElem_zipWith]
  exact Ideal.mul_mem_left _ _ (Ideal.subset_span (mem_dens (List.getElem_mem _)))

theorem index_eq {α : Type} {l : List α} {i : ℕ} {a : α} (h : index l i = .ok a) :
    l[i]? = some a ∧ a ∈ l := by
  unfold index at h
  split at h
  · rename_i x hx
    cases h
    exact ⟨hx, List.mem_of_getElem? hx⟩
  · cases h

theorem extendFor_mem {O : MOrder} {gens : List (Poly F)} (hg : ∀ g ∈ gens, Poly.Raw g) {i : ℕ}
    {l : List ℕ} {r : Poly F} (h : extendFor O gens i l = .ok (some r)) :
    Poly.Raw r ∧ Poly.den ℕ r ∈ Ideal.span (dens ℕ gens : Set (MvPolynomial ℕ K)) := by
  induction l with
  | nil => cases h
  | cons j l ih =>
    unfold extendFor at h
    obtain ⟨gi, h1, h⟩ := bind_eq_ok.mp h
    obtain ⟨gj, h2, h⟩ := bind_eq_ok.mp h
    obtain ⟨o, h3, h⟩ := bind_eq_ok.mp h
    rcases o with _ | s
    · cases h
    obtain ⟨⟨r', qs⟩, h4, h⟩ := bind_eq_ok.mp h
    dsimp only at h
    obtain ⟨o, h5, h⟩ := bind_eq_ok.mp h
    rcases o with _ | lc
    · exact ih h
    obtain ⟨r'', h6, h⟩ := bind_eq_ok.mp h
    cases h
    have hgi := (index_eq h1).2
    have hgj := (index_eq h2).2
    obtain ⟨e1, a, b, e2⟩ := C175_try_reduce (K := K) O (hg gi hgi) (hg gj hgj) h3
    obtain ⟨e3, e4⟩ := divide_mem (K := K) e1 hg h4
    have hlc : wf lc ∧ val lc ≠ (0 : K) := by
      unfold leadingCoef at h5
      obtain ⟨o, h7, h5⟩ := bind_eq_ok.mp h5
      rcases o with _ | t
      · cases h5
      · cases h5
        have ht := maxBy_mem _ h7 t rfl
        refine ⟨(e3 t ht).wf, fun h0 => ?_⟩
        have := divide_nonzero h4 t ht
        rw [(Term.isZero_iff (K := K) (e3 t ht).wf).mpr h0] at this
        cases this
    obtain ⟨e5, e6⟩ := Spec.of_ok ((C170_coef e3 hlc.1).2 hlc.2) h6
    refine ⟨e5, ?_⟩
    rw [e6]
    refine Ideal.mul_mem_left _ _ ?_
    have hs : Poly.den ℕ s ∈ Ideal.span (dens ℕ gens : Set (MvPolynomial ℕ K)) := by
      rw [e2]
      exact sub_mem (Ideal.mul_mem_left _ _ (Ideal.subset_span (mem_dens hgi)))
        (Ideal.mul_mem_left _ _ (Ideal.subset_span (mem_dens hgj)))
    simpa using sub_mem hs e4

/-- C175. The first phase appends generators and keeps the ideal. -/
theorem C175_extend (O : MOrder) {gens G : List (Poly F)} (hg : ∀ g ∈ gens, Poly.Raw g)
    (h : buchbergerExtend O gens = .ok G) :
    gens <+: G ∧ (∀ g ∈ G, Poly.Raw g) ∧
    Ideal.span (dens ℕ G : Set (MvPolynomial ℕ K)) = Ideal.span (dens ℕ gens) := by
  refine loop_partial (step := extendStep O)
    (fun s => gens <+: s.1 ∧ (∀ g ∈ s.1, Poly.Raw g) ∧
      Ideal.span (dens ℕ s.1 : Set (MvPolynomial ℕ K)) = Ideal.span (dens ℕ gens))
    (fun G => gens <+: G ∧ (∀ g ∈ G, Poly.Raw g) ∧
      Ideal.span (dens ℕ G : Set (MvPolynomial ℕ K)) = Ideal.span (dens ℕ gens)) ?_ ?_
    ⟨List.prefix_rfl, hg, rfl⟩ h
  · rintro ⟨G, i⟩ s' ⟨h1, h2, h3⟩ hs
    dsimp only at h1 h2 h3
    unfold extendStep at hs
    dsimp only at hs
    split at hs
    · obtain ⟨o, h4, hs⟩ := bind_eq_ok.mp hs
      rcases o with _ | r
      · cases hs; exact ⟨h1, h2, h3⟩
      · cases hs
        obtain ⟨e1, e2⟩ := extendFor_mem (K := K) h2 h4
        refine ⟨h1.trans (List.prefix_append _ _), fun g hg => ?_, ?_⟩
        · rcases List.mem_append.mp hg with hg | hg
          · exact h2 g hg
          · rw [List.mem_singleton] at hg; subst hg; exact e1
        · dsimp only
          rw [dens_append_singleton, ← h3]
          exact le_antisymm (Ideal.span_le.mpr (Set.insert_subset e2 Ideal.subset_span))
            (Ideal.span_mono (Set.subset_insert _ _))
    · cases hs
  · rintro ⟨G, i⟩ r ⟨h1, h2, h3⟩ hs
    unfold extendStep at hs
    dsimp only at hs
    split at hs
    · obtain ⟨o, h4, hs⟩ := bind_eq_ok.mp hs
      rcases o with _ | r <;> cases hs
    · cases hs; exact ⟨h1, h2, h3⟩

/-- C175. The second phase only drops generators. -/
theorem C175_minimize (O : MOrder) {gens G : List (Poly F)}
    (h : buchbergerMinimize O gens = .ok G) : G.Sublist gens := by
  refine loop_partial (step := minimizeStep O) (fun s => s.Sublist gens) (fun G => G.Sublist gens) ?_ ?_
    (List.Sublist.refl _) h
  · intro s s' h1 hs
    unfold minimizeStep at hs
    obtain ⟨o, h4, hs⟩ := bind_eq_ok.mp hs
    rcases o with _ | i
    · cases hs
    · cases hs; exact (List.eraseIdx_sublist _ _).trans h1
  · intro s r h1 hs
    unfold minimizeStep at hs
    obtain ⟨o, h4, hs⟩ := bind_eq_ok.mp hs
    rcases o with _ | i
    · cases hs; exact h1
    · cases hs

/-- C175. The last phase keeps the number of generators and the ideal. -/
theorem C175_reduce (O : MOrder) {gens G : List (Poly F)} (hg : ∀ g ∈ gens, Poly.Raw g)
    (h : buchbergerReduce O gens = .ok G) :
    G.length = gens.length ∧ (∀ g ∈ G, Poly.Raw g) ∧
    Ideal.span (dens ℕ G : Set (MvPolynomial ℕ K)) = Ideal.span (dens ℕ gens) := by
  refine loop_partial (step := reduceStep O)
    (fun s => s.length = gens.length ∧ (∀ g ∈ s, Poly.Raw g) ∧
      Ideal.span (dens ℕ s : Set (MvPolynomial ℕ K)) = Ideal.span (dens ℕ gens))
    (fun G => G.length = gens.length ∧ (∀ g ∈ G, Poly.Raw g) ∧
      Ideal.span (dens ℕ G : Set (MvPolynomial ℕ K)) = Ideal.span (dens ℕ gens)) ?_ ?_
    ⟨rfl, hg, rfl⟩ h
  · intro s s' hi hs
    obtain ⟨h1, h2, h3⟩ := hi
    unfold reduceStep at hs
    obtain ⟨o, h4, hs⟩ := bind_eq_ok.mp hs
    rcases o with _ | i
    · cases hs
    · obtain ⟨g, h5, hs⟩ := bind_eq_ok.mp hs
      dsimp only at hs
      obtain ⟨⟨r, qs⟩, h6, hs⟩ := bind_eq_ok.mp hs
      cases hs
      obtain ⟨h7, h8⟩ := index_eq h5
      have hi : i < s.length := (List.getElem?_eq_some_iff.mp h7).1
      have ho : ∀ g ∈ s.eraseIdx i, Poly.Raw g := fun g hg => h2 g (List.mem_of_mem_eraseIdx hg)
      obtain ⟨e1, e2⟩ := divide_mem (K := K) (h2 g h8) ho h6
      refine ⟨?_, fun u hu => ?_, ?_⟩
      · rw [List.length_append, List.length_eraseIdx, if_pos hi, List.length_singleton]; omega
      · rcases List.mem_append.mp hu with hu | hu
        · exact ho u hu
        · rw [List.mem_singleton] at hu; subst hu; exact e1
      · rw [← h3, dens_append_singleton]
        have hs : (dens ℕ s : Set (MvPolynomial ℕ K)) =
            insert (Poly.den ℕ g) (dens ℕ (s.eraseIdx i)) := by
          rw [← dens_append_singleton]
          have hp : (s.eraseIdx i ++ [g]).Perm s := by
            have := List.getElem_cons_eraseIdx_perm hi
            rw [(List.getElem?_eq_some_iff.mp h7).2] at this
            exact (List.perm_append_singleton g _).trans this
          ext x
          simp only [dens, Set.mem_ofPred_eq]
          constructor
          · rintro ⟨u, hu, rfl⟩; exact ⟨u, hp.mem_iff.mpr hu, rfl⟩
          · rintro ⟨u, hu, rfl⟩; exact ⟨u, hp.mem_iff.mp hu, rfl⟩
        rw [hs]
        set I : Ideal (MvPolynomial ℕ K) := Ideal.span (dens ℕ (s.eraseIdx i)) with hI
        have hle : ∀ a b : MvPolynomial ℕ K, a - b ∈ I →
            Ideal.span (insert a (dens ℕ (s.eraseIdx i))) ≤ Ideal.span (insert b (dens ℕ (s.eraseIdx i))) := by
          intro a b hab
          have hI' : I ≤ Ideal.span (insert b (dens ℕ (s.eraseIdx i))) :=
            Ideal.span_mono (Set.subset_insert _ _)
          rw [Ideal.span_le]
          rintro x (rfl | hx)
          · have := add_mem (hI' hab) (Ideal.subset_span (Set.mem_insert b _))
            rwa [sub_add_cancel] at this
          · exact Ideal.subset_span (Set.mem_insert_of_mem _ hx)
        refine le_antisymm (hle _ _ ?_) (hle _ _ e2)
        have := neg_mem e2
        rwa [neg_sub] at this
  · intro s r hi hs
    unfold reduceStep at hs
    obtain ⟨o, h4, hs⟩ := bind_eq_ok.mp hs
    rcases o with _ | i
    · cases hs; exact hi
    · obtain ⟨g, h5, hs⟩ := bind_eq_ok.mp hs
      obtain ⟨⟨r, qs⟩, h6, hs⟩ := bind_eq_ok.mp hs
      cases hs

/-- C175. Whatever `buchberger_algorithm` returns lies in the ideal of the generators. -/
theorem C175_algorithm (O : MOrder) {gens G : List (Poly F)} (hg : ∀ g ∈ gens, Poly.Raw g)
    (h : buchbergerAlgorithm O gens = .ok G) :
    (∀ g ∈ G, Poly.Raw g) ∧
    Ideal.span (dens ℕ G : Set (MvPolynomial ℕ K)) ≤ Ideal.span (dens ℕ gens) := by
  unfold buchbergerAlgorithm at h
  obtain ⟨g₁, h1, h⟩ := bind_eq_ok.mp h
  obtain ⟨g₂, h2, h3⟩ := bind_eq_ok.mp h
  obtain ⟨-, e1, e2⟩ := C175_extend (K := K) O hg h1
  have e3 := C175_minimize O h2
  obtain ⟨-, e4, e5⟩ := C175_reduce (K := K) O (fun g hg => e1 g (e3.subset hg)) h3
  refine ⟨e4, ?_⟩
  rw [e5, ← e2]
  refine Ideal.span_mono ?_
  rintro x ⟨g, hg, rfl⟩
  exact ⟨g, e3.subset hg, rfl⟩

end

/-- The generators `x` and `0 x² + y`. -/
def rawGens : List (Poly Rational) :=
  [Poly.newUnchecked [⟨⟨1, 1⟩, [1]⟩], Poly.newUnchecked [⟨⟨0, 1⟩, [2]⟩, ⟨⟨1, 1⟩, [0, 1]⟩]]

/-- C175. The ideal can become smaller: from `x` and `Polynomial::new_unchecked([0 x², y])` only `x` is
kept; and the criterion accepts the two. -/
theorem C175_refuted :
    letI := Rational.field .debug
    letI := Rational.lawful
    (∀ g ∈ rawGens, Poly.Raw g) ∧
    buchbergerCriterion (OrdKind.lex.order .debug) rawGens = .ok true ∧
    buchbergerAlgorithm (OrdKind.lex.order .debug) rawGens = .ok [[⟨⟨1, 1⟩, [1]⟩]] ∧
    X 1 ∈ Ideal.span (dens ℕ rawGens : Set (MvPolynomial ℕ ℚ)) ∧
    X 1 ∉ Ideal.span (dens ℕ [([⟨⟨1, 1⟩, [1]⟩] : Poly Rational)] : Set (MvPolynomial ℕ ℚ)) := by
  let _ := Rational.field .debug
  let _ := Rational.lawful
  have one : (val (⟨1, 1⟩ : Rational) : ℚ) = 1 := by change ((1 : Int) : ℚ) / ((1 : Int) : ℚ) = 1; norm_num
  have zero : (val (⟨0, 1⟩ : Rational) : ℚ) = 0 := by change ((0 : Int) : ℚ) / ((1 : Int) : ℚ) = 0; norm_num
  have e0 : Poly.den ℕ ([⟨⟨1, 1⟩, [1]⟩] : Poly Rational) = (X 0 : MvPolynomial ℕ ℚ) := by
    simp only [Poly.den, Term.den, List.map_cons, List.map_nil, List.sum_cons, List.sum_nil, add_zero, one]
    exact congrArg (monomial · (1 : ℚ)) (Finsupp.ext fun i => by
      rw [MDeg.toF_apply, Finsupp.single_apply]
      change MDeg.deg [1] i = _
      rcases i with _ | i <;> simp [MDeg.deg])
  have e1 : Poly.den ℕ ([⟨⟨0, 1⟩, [2]⟩, ⟨⟨1, 1⟩, [0, 1]⟩] : Poly Rational) =
      (X 1 : MvPolynomial ℕ ℚ) := by
    simp only [Poly.den, Term.den, List.map_cons, List.map_nil, List.sum_cons, List.sum_nil, add_zero, one,
      zero, map_zero, zero_add]
    exact congrArg (monomial · (1 : ℚ)) (Finsupp.ext fun i => by
      rw [MDeg.toF_apply, Finsupp.single_apply]
      change MDeg.deg [0, 1] i = _
      rcases i with _ | _ | i <;> simp [MDeg.deg])
  refine ⟨?_, ?_, ?_, ?_, ?_⟩
  · have : ∀ g ∈ rawGens, ∀ t ∈ g, (0 < t.coef.denom ∧ (t.coef.numer = 0 → t.coef.denom = 1)) ∧
        ∀ d ∈ t.mdeg, d < 256 := by decide
    exact fun g hg t ht => ⟨⟨(this g hg t ht).1.1, (this g hg t ht).1.2⟩, (this g hg t ht).2⟩
  · exact (Computer.buchbergerCriterionN_approx 30 _).eq (by decide +kernel) (by simp)
  · exact (Computer.buchbergerAlgorithmN_approx 30 _).eq (by decide +kernel) (by simp)
  · rw [← e1]
    exact Ideal.subset_span ⟨_, List.mem_cons_of_mem _ (List.mem_singleton_self _), rfl⟩
  · have e3 : (dens ℕ [([⟨⟨1, 1⟩, [1]⟩] : Poly Rational)] : Set (MvPolynomial ℕ ℚ)) = {X 0} := by
      rw [← e0]
      ext q
      constructor
      · rintro ⟨g, hg, rfl⟩
        rw [List.mem_singleton.mp hg]; rfl
      · rintro rfl
        exact ⟨_, List.mem_singleton_self _, rfl⟩
    rw [e3, Ideal.mem_span_singleton]
    rintro ⟨q, hq⟩
    have := congrArg (MvPolynomial.eval fun i => if i = 0 then (0 : ℚ) else 1) hq
    simp at this

end Verif
