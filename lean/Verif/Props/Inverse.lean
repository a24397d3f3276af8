import Verif.Props.IdealSum
import Verif.Props.Coprime

/-!
# Property C217: units and zero divisors modulo an ideal
-/

namespace Verif
open Res MvPolynomial LawfulRField MOrder ExtraVar

section
variable {F : Type} [RField F]

/-- An inverse of `f` modulo the ideal of `gens`, if there is one; `x_k` is a variable that does not occur.
The candidate is the remainder of `x_k` by a basis of `gens` and `1 - x_k f`. -/
def inverseMod (O : MOrder) (k : ℕ) (gens : List (Poly F)) (f : Poly F) : Res (Option (Poly F)) := do
  let G ← rabinowitsch (OrdKind.revLex.order .debug) k gens f
  let (r, _) ← Computer.divide (OrdKind.revLex.order .debug) (Poly.var k 1) G
  if r.all fun t => t.mdeg.deg k = 0 then do
    let rf ← Poly.mul r f
    let d ← Poly.sub rf Poly.one
    let b ← includes O [d] gens
    pure (if b then some r else none)
  else pure none

/-- Whether `f` is no zero divisor modulo the ideal of `gens`. -/
def regularMod (O : MOrder) (k : ℕ) (gens : List (Poly F)) (f : Poly F) : Res Bool := do
  let Q ← quotientBy O k gens f
  includes O Q gens

variable {K : Type} [Field K] [LawfulRField F K] {k : ℕ} {O : MOrder} {m : MonomialOrder (Fin k)}

omit [RField F] [LawfulRField F K] in
/-- With `RevLex` the leading monomial of `x_k - h` is `x_k`. -/
theorem degree_last_sub (h : MvPolynomial (Fin k) K) :
    last - emb h ≠ 0 ∧ (OrdKind.revLex.mathlib (k + 1)).degree (last - emb h : MvPolynomial (Fin (k + 1)) K) =
      Finsupp.single (Fin.last k) 1 := by
  have hsup : ∀ e ∈ (emb h : MvPolynomial (Fin (k + 1)) K).support, ∀ i, e i ≠ 0 → i.val < k := by
    intro e he i hi
    have : emb h ∈ supported K {i : Fin (k + 1) | i.val < k} := by
      rw [mem_supported]
      intro i hi
      unfold emb at hi
      obtain ⟨j, -, rfl⟩ := Finset.mem_image.mp (vars_rename _ _ hi)
      exact j.2
    exact mem_supported_iff.mp this e he i hi
  have hnot : Finsupp.single (Fin.last k) 1 ∉ (emb h : MvPolynomial (Fin (k + 1)) K).support := fun hc => by
    have := hsup _ hc (Fin.last k) (by simp)
    simp at this
  have hmem : Finsupp.single (Fin.last k) 1 ∈ (last - emb h : MvPolynomial (Fin (k + 1)) K).support := by
    rw [mem_support_iff, coeff_sub, notMem_support_iff.mp hnot, sub_zero]
    unfold last
    rw [coeff_X, if_pos rfl]
    exact one_ne_zero
  have hne : last - emb h ≠ 0 := fun h0 => by rw [h0] at hmem; simp at hmem
  refine ⟨hne, ?_⟩
  by_contra hd
  have hdm := (OrdKind.revLex.mathlib (k + 1)).degree_mem_support hne
  have hin : (OrdKind.revLex.mathlib (k + 1)).degree (last - emb h) ∈
      (emb h : MvPolynomial (Fin (k + 1)) K).support := by
    rw [mem_support_iff, coeff_sub] at hdm
    rw [mem_support_iff]
    intro h0
    rw [h0, sub_zero] at hdm
    unfold last at hdm
    rw [coeff_X, if_neg (fun e => hd e.symm)] at hdm
    exact hdm rfl
  have := revLex_eliminates (n := k + 1) k _ _ ((OrdKind.revLex.mathlib (k + 1)).le_degree hmem)
    (fun i hi => hsup _ hin i hi) (Fin.last k) (by simp)
  simp at this

/-- C217, inverses: the program returns one exactly if there is one. -/
theorem C217_inverse (hO : Implements O m) (gens : List (Poly F)) (f : Poly F)
    (hg : ∀ g ∈ gens, Poly.Clean (Fin k) g ∧ Poly.den (Fin k) g ≠ (0 : MvPolynomial (Fin k) K))
    (hf : Poly.Clean (Fin k) f) :
    Spec (PolyPanic F) (inverseMod O k gens f) (fun o =>
      (o.isSome = true ↔ ∃ h : MvPolynomial (Fin k) K,
        h * Poly.den (Fin k) f - 1 ∈ Ideal.span (dens (Fin k) gens)) ∧
      ∀ r, o = some r → Poly.Clean (Fin k) r ∧
        (Poly.den (Fin k) r * Poly.den (Fin k) f - 1 : MvPolynomial (Fin k) K) ∈
          Ideal.span (dens (Fin k) gens)) := by
  unfold inverseMod rabinowitsch
  rw [bind_assoc]
  refine (rabinowitsch_gens hg hf).bind fun h hh => ?_
  refine (algorithm_spec (OrdKind.implements .revLex (k + 1)) _ hh.1 (fun _ => True) trivial
    fun _ _ => trivial).bind fun G hG => ?_
  have hv := var_last (F := F) (K := K) (k := k)
  have hGc : ∀ g ∈ G, Poly.Clean (Fin (k + 1)) g := fun g hgm => (hG.1 g hgm).1
  refine ((C36_divide_identity (OrdKind.implements .revLex (k + 1)) _ _ hv.1 hGc).and
    (C37_remainder_reduced (OrdKind.implements .revLex (k + 1)) _ _ hv.1 hGc)).bind ?_
  rintro ⟨r, qs⟩ ⟨⟨hrc, -, -, hid⟩, hred⟩
  dsimp only at hid hred ⊢
  set I := Ideal.span (dens (Fin k) gens : Set (MvPolynomial (Fin k) K)) with hI
  set J := Ideal.span (emb '' dens (Fin k) gens ∪ {1 - last * emb (Poly.den (Fin k) f)} :
    Set (MvPolynomial (Fin (k + 1)) K)) with hJ
  rw [hh.2] at hG
  have hrJ : last - Poly.den (Fin (k + 1)) r ∈ J := by
    rw [hv.2] at hid
    rw [hid, add_sub_cancel_right]
    refine list_sum_mem fun x hx => ?_
    rw [← List.map_uncurry_zip_eq_zipWith] at hx
    obtain ⟨⟨q, g⟩, hz, rfl⟩ := List.mem_map.mp hx
    refine Ideal.mul_mem_left _ _ ?_
    rw [hJ, ← hG.2.1.span_eq]
    exact Ideal.subset_span ⟨g, (List.of_mem_zip hz).2, rfl⟩
  have hfJ : (1 - last * emb (Poly.den (Fin k) f) : MvPolynomial (Fin (k + 1)) K) ∈ J :=
    Ideal.subset_span (.inr rfl)
  have hIJ : ∀ x ∈ I, emb x ∈ J := fun x hx => by
    rw [hJ, saturation]; exact ⟨0, by simpa using hx⟩
  -- an inverse shows that `r` does not contain the new variable, and `r` is an inverse
  have key : (∃ h : MvPolynomial (Fin k) K, h * Poly.den (Fin k) f - 1 ∈ I) →
      (∀ t ∈ r, t.mdeg.deg k = 0) ∧ ∀ hr : ∀ t ∈ r, t.mdeg.deg k = 0,
        Poly.den (Fin k) r * Poly.den (Fin k) f - 1 ∈ I := by
    rintro ⟨h, hh⟩
    have hmem : last - emb h ∈ J := by
      have e : (last - emb h : MvPolynomial (Fin (k + 1)) K) =
          - (emb h * (1 - last * emb (Poly.den (Fin k) f))) - last * emb (h * Poly.den (Fin k) f - 1) := by
        rw [map_sub, map_mul, map_one]; ring
      rw [e]
      exact sub_mem (neg_mem (Ideal.mul_mem_left _ _ hfJ)) (Ideal.mul_mem_left _ _ (hIJ _ hh))
    obtain ⟨hne, hdeg⟩ := degree_last_sub h
    have h1 : ∀ t ∈ r, t.mdeg.deg k = 0 := by
      intro t ht
      by_contra hc
      obtain ⟨_, ⟨g, hgm, rfl⟩, hg0, hle⟩ := hG.2.1.2 _ hmem hne
      rw [hdeg] at hle
      refine hred _ ((Poly.mem_support_den hrc).mpr ⟨t, ht, rfl⟩) g hgm hg0 (hle.trans ?_)
      rw [Finsupp.single_le_iff, MDeg.toF_apply]
      exact Nat.one_le_iff_ne_zero.mpr hc
    refine ⟨h1, fun _ => ?_⟩
    have hrk := clean_of_deg hrc h1
    rw [den_succ hrk.vars] at hrJ
    have h2 : emb (h - Poly.den (Fin k) r) ∈ J := by
      rw [map_sub]
      have := sub_mem hrJ hmem
      rwa [sub_sub_sub_cancel_left] at this
    rw [hJ, saturation] at h2
    obtain ⟨N, hN⟩ := h2
    -- `f` can be cancelled
    have hcancel : ∀ x, Poly.den (Fin k) f * x ∈ I → x ∈ I := fun x hx => by
      have e : x = h * (Poly.den (Fin k) f * x) - x * (h * Poly.den (Fin k) f - 1) := by ring
      rw [e]
      exact sub_mem (Ideal.mul_mem_left _ _ hx) (Ideal.mul_mem_left _ _ hh)
    have h3 : ∀ N x, Poly.den (Fin k) f ^ N * x ∈ I → x ∈ I := by
      intro N
      induction N with
      | zero => intro x hx; simpa using hx
      | succ N ih =>
        intro x hx
        rw [pow_succ, mul_assoc] at hx
        exact hcancel _ (ih _ hx)
    have h4 := h3 N _ hN
    have e : (Poly.den (Fin k) r * Poly.den (Fin k) f - 1 : MvPolynomial (Fin k) K) =
        (h * Poly.den (Fin k) f - 1) - Poly.den (Fin k) f * (h - Poly.den (Fin k) r) := by ring
    rw [e]
    exact sub_mem hh (Ideal.mul_mem_left _ _ h4)
  by_cases hr : r.all (fun t => t.mdeg.deg k = 0) = true
  · rw [if_pos hr]
    have hr' : ∀ t ∈ r, t.mdeg.deg k = 0 := by simpa using hr
    have hrk := clean_of_deg hrc hr'
    have h1 := one_clean_den (F := F) (K := K) (k := k)
    refine (Poly.mul_spec (E := PolyPanic F) hrk.oks hf polyPanic_allowed (Or.inl (Or.inr rfl))).bind fun p hp => ?_
    refine ((Poly.sub_spec hp.1 h1.1).mono polyPanic_allowed fun _ h => h).bind fun d hd => ?_
    refine (C146_inclusion hO [d] gens (by simpa using hd.1) hg).bind fun b hb => ?_
    have hb' : b = true ↔ Poly.den (Fin k) r * Poly.den (Fin k) f - 1 ∈ I := by
      rw [hb, dens_singleton, Ideal.span_singleton_le_iff_mem, hd.2, hp.2, h1.2]
    refine ⟨?_, ?_⟩
    · constructor
      · intro h
        refine ⟨_, hb'.mp ?_⟩
        by_contra hc
        rw [if_neg hc] at h
        cases h
      · intro h
        rw [if_pos (hb'.mpr ((key h).2 hr'))]
        rfl
    · intro s hs
      by_cases hc : b = true
      · rw [if_pos hc] at hs
        cases hs
        exact ⟨hrk, hb'.mp hc⟩
      · rw [if_neg hc] at hs
        cases hs
  · rw [if_neg hr]
    refine ⟨⟨fun h => (by cases h), fun h => absurd ?_ hr⟩, fun s hs => by cases hs⟩
    simpa using (key h).1

/-- C217, units: `f` is invertible modulo the ideal exactly if the basis of the generators and `f` is a constant. -/
theorem C217_unit (hO : Implements O m) (gens : List (Poly F)) (f : Poly F)
    (hg : ∀ g ∈ gens, Poly.Clean (Fin k) g ∧ Poly.den (Fin k) g ≠ (0 : MvPolynomial (Fin k) K))
    (hf : Poly.Clean (Fin k) f ∧ Poly.den (Fin k) f ≠ (0 : MvPolynomial (Fin k) K)) :
    Spec (PolyPanic F) (Computer.buchbergerAlgorithm O (gens ++ [f])) (fun G =>
      (∃ c : F, val c ≠ (0 : K) ∧ G = [[⟨c, []⟩]]) ↔
        ∃ h : MvPolynomial (Fin k) K, h * Poly.den (Fin k) f - 1 ∈ Ideal.span (dens (Fin k) gens)) := by
  refine (C99_unit_ideal hO (gens ++ [f]) fun g h => ?_).imp fun G hG => ?_
  · rcases List.mem_append.mp h with h | h
    · exact hg g h
    · rw [List.mem_singleton.mp h]; exact hf
  · rw [← hG, dens_append, dens_singleton, Ideal.span_union, Submodule.mem_sup]
    constructor
    · rintro ⟨x, hx, y, hy, h⟩
      obtain ⟨a, rfl⟩ := Ideal.mem_span_singleton'.mp hy
      refine ⟨a, ?_⟩
      have : a * Poly.den (Fin k) f - 1 = -x := by rw [← h]; ring
      rw [this]
      exact neg_mem hx
    · rintro ⟨a, ha⟩
      exact ⟨_, neg_mem ha, _, Ideal.mem_span_singleton'.mpr ⟨a, rfl⟩, by ring⟩

/-- C217, zero divisors. -/
theorem C217_regular (hO : Implements O m) (gens : List (Poly F)) (f : Poly F)
    (hg : ∀ g ∈ gens, Poly.Clean (Fin k) g ∧ Poly.den (Fin k) g ≠ (0 : MvPolynomial (Fin k) K))
    (hf : Poly.Clean (Fin k) f ∧ Poly.den (Fin k) f ≠ (0 : MvPolynomial (Fin k) K)) :
    Spec (PolyPanic F) (regularMod O k gens f) (fun b => b = true ↔ ∀ g : MvPolynomial (Fin k) K,
      Poly.den (Fin k) f * g ∈ Ideal.span (dens (Fin k) gens) → g ∈ Ideal.span (dens (Fin k) gens)) := by
  refine (C137_quotient hO gens f hg hf).bind fun Q hQ => ?_
  refine (C146_inclusion hO Q gens hQ.1 hg).imp fun b hb => ?_
  rw [hb]
  exact ⟨fun h g hgm => h ((hQ.2 g).mpr hgm), fun h g hgm => h g ((hQ.2 g).mp hgm)⟩

end

section
def xSqMinusTwo : Poly Rational := [⟨⟨1, 1⟩, [2]⟩, ⟨⟨-2, 1⟩, []⟩]

/-- Modulo `x² - 2` the inverse of `x + 1` is `x - 1`. -/
theorem C217_run : letI := Rational.field .debug
    inverseMod (OrdKind.lex.order .debug) 1 [xSqMinusTwo] xPlusOne =
      .ok (some [⟨⟨1, 1⟩, [1]⟩, ⟨⟨-1, 1⟩, []⟩]) := by
  let _ := Rational.field .debug
  refine bind_eq_ok.mpr ⟨[xSqMinusTwo, [⟨⟨1, 1⟩, [0, 1]⟩, ⟨⟨-1, 1⟩, [1]⟩, ⟨⟨1, 1⟩, []⟩]], ?_, ?_⟩
  · exact bind_eq_ok.mpr ⟨[⟨⟨1, 1⟩, []⟩, ⟨⟨-1, 1⟩, [1, 1]⟩, ⟨⟨-1, 1⟩, [0, 1]⟩], by decide +kernel,
      (Computer.buchbergerAlgorithmN_approx 30 _).eq (by decide +kernel) (by simp)⟩
  refine bind_eq_ok.mpr ⟨([⟨⟨1, 1⟩, [1]⟩, ⟨⟨-1, 1⟩, []⟩], [[], [⟨⟨1, 1⟩, []⟩]]),
    (Computer.divideN_approx 20 _ _).eq (by decide +kernel) (by simp), ?_⟩
  dsimp only
  rw [if_pos (by decide +kernel)]
  refine bind_eq_ok.mpr ⟨[⟨⟨1, 1⟩, [2]⟩, ⟨⟨-1, 1⟩, []⟩], by decide +kernel, ?_⟩
  refine bind_eq_ok.mpr ⟨xSqMinusTwo, by decide +kernel, ?_⟩
  refine bind_eq_ok.mpr ⟨true, ?_, rfl⟩
  refine bind_eq_ok.mpr ⟨[xSqMinusTwo],
    (Computer.buchbergerAlgorithmN_approx 30 _).eq (by decide +kernel) (by simp), ?_⟩
  refine bind_eq_ok.mpr ⟨[[]], ?_, rfl⟩
  rw [List.mapM_cons, List.mapM_nil]
  refine bind_eq_ok.mpr ⟨[], ?_, rfl⟩
  exact bind_eq_ok.mpr ⟨([], [[⟨⟨1, 1⟩, []⟩]]),
    (Computer.divideN_approx 20 _ _).eq (by decide +kernel) (by simp), rfl⟩

example : letI := Rational.field .debug
    letI := Rational.lawful
    ∀ g ∈ [xSqMinusTwo], Poly.Clean (Fin 1) g ∧ Poly.den (Fin 1) g ≠ (0 : MvPolynomial (Fin 1) ℚ) :=
  sampleGens (k := 1) (by decide)

end
end Verif
