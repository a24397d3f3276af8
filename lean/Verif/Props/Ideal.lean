import Verif.Props.Comp
import Verif.Props.F64Poly
import Verif.Proofs.Run
import Mathlib.RingTheory.Nullstellensatz
import Mathlib.FieldTheory.IsAlgClosed.AlgebraicClosure
import Mathlib.Algebra.MvPolynomial.Supported
import Mathlib.LinearAlgebra.Dimension.Finite
import Mathlib.Data.Finsupp.Interval

/-!
# Properties C97–C107: what the Gröbner basis routines compute about ideals

Conventions as in `Props/Comp.lean`.
-/

namespace Verif
open Res MvPolynomial LawfulRField

section
variable {F : Type} [RField F] {K : Type} [Field K] [LawfulRField F K]
variable {n : ℕ} {O : MOrder} {m : MonomialOrder (Fin n)}

/-- Checks the hypotheses on generators for a list of rational polynomials. -/
theorem sampleGens {k : ℕ} {gens : List (Poly Rational)} (h : ∀ g ∈ gens, sampleOk k g ∧ g ≠ []) :
    letI := Rational.field .debug
    letI := Rational.lawful
    ∀ g ∈ gens, Poly.Clean (Fin k) g ∧ Poly.den (Fin k) g ≠ 0 := by
  let _ := Rational.field .debug
  let _ := Rational.lawful
  intro g hg
  refine ⟨(h g hg).1.clean, ?_⟩
  rw [Ne, Poly.den_eq_zero_iff (h g hg).1.clean]
  exact (h g hg).2

/-- `x - 1` -/
def xSubOne : Poly Rational := [⟨⟨1, 1⟩, [1]⟩, ⟨⟨-1, 1⟩, []⟩]
/-- `x^2 - 1` -/
def xSqSubOne : Poly Rational := [⟨⟨1, 1⟩, [2]⟩, ⟨⟨-1, 1⟩, []⟩]
/-- `x^2 - 3 x + 2` -/
def xSqSubThree : Poly Rational := [⟨⟨1, 1⟩, [2]⟩, ⟨⟨-3, 1⟩, [1]⟩, ⟨⟨2, 1⟩, []⟩]

/-! ## C97 sort_terms gives a normal form -/

/-- C97. Two canonical polynomials are equal exactly when their sorted term lists agree, term by
term, in multidegree and coefficient value. -/
theorem C97_sorted_normal_form (hO : Implements O m) (p q : Poly F) (hp : Poly.Clean (Fin n) p)
    (hq : Poly.Clean (Fin n) q) (p' q' : Poly F) (hp' : Computer.sortTerms O p = .ok p')
    (hq' : Computer.sortTerms O q = .ok q') :
    Poly.den (Fin n) p = Poly.den (Fin n) q ↔
      List.Forall₂ (fun s t : Term F => s.mdeg = t.mdeg ∧ (val s.coef : K) = val t.coef) p' q' := by
  obtain ⟨pp, sp, dp⟩ := (C34_sort_terms hO p hp).of_ok hp'
  obtain ⟨pq, sq, dq⟩ := (C34_sort_terms hO q hq).of_ok hq'
  rw [← dp, ← dq]
  have cp := hp.perm pp.symm
  have cq := hq.perm pq.symm
  constructor
  · intro h
    have key : ∀ r : Poly F, (r.Pairwise fun s t => m.toSyn (s.mdeg.toF (Fin n)) <
        m.toSyn (t.mdeg.toF (Fin n))) → (r.map fun t => (t.mdeg, (val t.coef : K))).Pairwise
          fun a b => m.toSyn (a.1.toF (Fin n)) < m.toSyn (b.1.toF (Fin n)) := fun r hr =>
      List.pairwise_map.mpr hr
    have := (Poly.den_inj cp cq h).eq_of_pairwise (fun a b _ _ h1 h2 => absurd h1 (lt_asymm h2))
      (key _ sp) (key _ sq)
    clear * - this
    induction p' generalizing q' with
    | nil => cases q' with
      | nil => exact .nil
      | cons t q' => simp at this
    | cons s p' ih => cases q' with
      | nil => simp at this
      | cons t q' =>
        simp only [List.map_cons, List.cons.injEq, Prod.mk.injEq] at this
        exact .cons this.1 (ih q' this.2)
  · intro h
    clear * - h
    induction h with
    | nil => rfl
    | cons h _ ih => rw [Poly.den_cons, Poly.den_cons, ih, Term.den, Term.den, h.1, h.2]

/-- C97. With exact coefficients the sorted term lists are literally equal. -/
theorem C97_exact (K : Type) [Field K] [DecidableEq K] (hO : Implements O m) (p q p' q' : Poly K) :
    letI := exactField .debug K
    letI := exactLawful K
    Poly.Clean (Fin n) p → Poly.Clean (Fin n) q → Computer.sortTerms O p = .ok p' →
    Computer.sortTerms O q = .ok q' → (Poly.den (Fin n) p = Poly.den (Fin n) q ↔ p' = q') := by
  let _ := exactField .debug K
  let _ := exactLawful K
  intro hp hq hp' hq'
  rw [C97_sorted_normal_form hO p q hp hq p' q' hp' hq']
  have : (fun s t : Term K => s.mdeg = t.mdeg ∧ (val s.coef : K) = val t.coef) = Eq := by
    funext s t
    rcases s with ⟨c, d⟩; rcases t with ⟨c', d'⟩
    simp only [Term.mk.injEq, eq_iff_iff]
    exact and_comm
  rw [this, List.forall₂_eq_eq_eq]

/-- The hypotheses hold for `2 - x` and `-x + 2`, which sort to the same list. -/
example : letI := Rational.field .debug
    sampleOk 1 [⟨⟨2, 1⟩, []⟩, ⟨⟨-1, 1⟩, [1]⟩] ∧ sampleOk 1 [⟨⟨-1, 1⟩, [1]⟩, ⟨⟨2, 1⟩, []⟩] ∧
    Computer.sortTerms (OrdKind.lex.order .debug) ([⟨⟨2, 1⟩, []⟩, ⟨⟨-1, 1⟩, [1]⟩] : Poly Rational) =
      .ok [⟨⟨2, 1⟩, []⟩, ⟨⟨-1, 1⟩, [1]⟩] ∧
    Computer.sortTerms (OrdKind.lex.order .debug) ([⟨⟨-1, 1⟩, [1]⟩, ⟨⟨2, 1⟩, []⟩] : Poly Rational) =
      .ok [⟨⟨2, 1⟩, []⟩, ⟨⟨-1, 1⟩, [1]⟩] := by decide +kernel

/-! ## C98 remainders are sorted, and are normal forms -/

/-- The order of the terms of a remainder: strictly descending. -/
def Descending (m : MonomialOrder (Fin n)) (p : Poly F) : Prop :=
  p.Pairwise fun s t => m.toSyn (t.mdeg.toF (Fin n)) < m.toSyn (s.mdeg.toF (Fin n))

theorem addTerm_push {p : Poly F} {t : Term F} (ht : t.Clean (Fin n))
    (h : ∀ u ∈ p, u.mdeg ≠ t.mdeg) : Poly.addTerm p t = .ok (p ++ [t]) := by
  have hz : t.isZero = false := Term.isZero_false ht.wf ht.ne
  unfold Poly.addTerm
  cases p with
  | nil => simp [Poly.isZero, Poly.ofTerm, Poly.termUnchecked, Poly.newUnchecked, hz, pure_eq]
  | cons u p =>
    have : Poly.isZero (u :: p) = false := by simp [Poly.isZero]
    rw [this, hz]
    simp only [Bool.false_eq_true, if_false]
    clear this
    generalize u :: p = l at h
    induction l with
    | nil => rfl
    | cons v l ih =>
      rw [Poly.addNonzeroTerm, if_neg (h v (by simp)), ih fun u hu => h u (by simp [hu])]
      rfl

/-- Inversion of one step of `divide`. -/
theorem divideStep_cases {divs : List (Poly F)} {s s' : Computer.DivState F}
    (h : Computer.divideStep O divs s = .ok (.inl s')) :
    (∃ ltF qs f', Computer.leadingTerm O s.f = .ok (some ltF) ∧
      Computer.divideFor O ltF s.f (divs.zip s.quotients) = .ok (some (qs, f')) ∧
      s' = ⟨f', qs, s.remainder⟩) ∨
    (∃ sorted, sortBy (fun s t => O.cmp s.mdeg t.mdeg) s.f = .ok sorted ∧
      ((sorted = [] ∧ s' = ⟨sorted, s.quotients, s.remainder⟩) ∨
        ∃ init lt r, sorted = init ++ [lt] ∧ Poly.addTerm s.remainder lt = .ok r ∧
          s' = ⟨init, s.quotients, r⟩)) := by
  unfold Computer.divideStep at h
  rw [bind_eq_ok] at h
  obtain ⟨lt, hlt, h⟩ := h
  rcases lt with _ | ltF
  · cases h
  dsimp only at h
  rw [bind_eq_ok] at h
  obtain ⟨o, ho, h⟩ := h
  rcases o with _ | ⟨qs, f'⟩
  · right
    dsimp only at h
    rw [bind_eq_ok] at h
    obtain ⟨sorted, hs, h⟩ := h
    refine ⟨sorted, hs, ?_⟩
    rcases List.eq_nil_or_concat sorted with rfl | ⟨init, lt, rfl⟩
    · left; cases h; exact ⟨rfl, rfl⟩
    · right
      rw [List.concat_eq_append] at *
      rw [List.getLast?_append_of_ne_nil _ (by simp)] at h
      simp only [List.getLast?_singleton] at h
      rw [bind_eq_ok] at h
      obtain ⟨r, hr, h⟩ := h
      rw [List.dropLast_concat] at h
      cases h
      exact ⟨init, lt, r, rfl, hr, rfl⟩
  · left
    cases h
    exact ⟨ltF, qs, f', hlt, ho, rfl⟩

theorem mem_key_le_degree {p : Poly F} (hp : Poly.Clean (Fin n) p) {t : Term F} (ht : t ∈ p) :
    m.toSyn (t.mdeg.toF (Fin n)) ≤ m.toSyn (m.degree (Poly.den (Fin n) p)) :=
  m.le_degree ((Poly.mem_support_den hp).mpr ⟨t, ht, rfl⟩)

/-- Everything in the remainder is above everything left to divide. -/
structure DivDesc (m : MonomialOrder (Fin n)) (s : Computer.DivState F) : Prop where
  desc : Descending m s.remainder
  above : ∀ r ∈ s.remainder, ∀ t ∈ s.f,
    m.toSyn (t.mdeg.toF (Fin n)) < m.toSyn (r.mdeg.toF (Fin n))

theorem sorted_last {f init : Poly F} {lt : Term F} (hf : Poly.Clean (Fin n) f)
    (hperm : (init ++ [lt]).Perm f)
    (hs : (init ++ [lt]).Pairwise fun a b : Term F =>
      m.toSyn (a.mdeg.toF (Fin n)) ≤ m.toSyn (b.mdeg.toF (Fin n))) :
    ∀ t ∈ init, m.toSyn (t.mdeg.toF (Fin n)) < m.toSyn (lt.mdeg.toF (Fin n)) := by
  intro t ht
  have hc := hf.perm hperm.symm
  have hnd : (init ++ [lt]).Pairwise fun s t => s.mdeg ≠ t.mdeg := List.pairwise_map.mp hc.nodup
  have h1 := (List.pairwise_append.mp hs).2.2 t ht lt (by simp)
  have h2 := (List.pairwise_append.mp hnd).2.2 t ht lt (by simp)
  refine lt_of_le_of_ne h1 fun h => h2 ?_
  exact MDeg.toF_inj (hc.terms t (by simp [ht])).mdeg (hc.terms lt (by simp)).mdeg
    (hc.terms t (by simp [ht])).vars (hc.terms lt (by simp)).vars (m.toSyn.injective h)

/-- Moving the largest term to the remainder. -/
theorem move_last (hO : Implements O m) {s s' : Computer.DivState F} (hf : Poly.Clean (Fin n) s.f)
    (hd : DivDesc m s) {sorted : Poly F}
    (hs : sortBy (fun s t => O.cmp s.mdeg t.mdeg) s.f = .ok sorted)
    (h : (sorted = [] ∧ s' = ⟨sorted, s.quotients, s.remainder⟩) ∨
        ∃ init lt r, sorted = init ++ [lt] ∧ Poly.addTerm s.remainder lt = .ok r ∧
          s' = ⟨init, s.quotients, r⟩) :
    DivDesc m s' ∧ (s'.remainder ++ s'.f).Perm (s.remainder ++ s.f) ∧
      s'.quotients = s.quotients := by
  have hsort := (sortTerms_spec (hO.lawful (E := (· = .overflowU8)) rfl) hf in_true).of_ok hs
  rcases h with ⟨rfl, rfl⟩ | ⟨init, lt, r, rfl, hr, rfl⟩
  · refine ⟨⟨hd.desc, by simp⟩, ?_, rfl⟩
    simp [List.nil_perm.mp hsort.1]
  · have hlt := sorted_last hf hsort.1 hsort.2
    have hltm : lt ∈ s.f := hsort.1.mem_iff.mp (by simp)
    have hltc := hf.terms lt hltm
    have hpush := addTerm_push (p := s.remainder) hltc fun u hu heq => by
      have := hd.above u hu lt hltm
      rw [heq] at this
      exact lt_irrefl _ this
    rw [hpush] at hr
    cases hr
    refine ⟨⟨?_, ?_⟩, ?_, rfl⟩
    · refine List.pairwise_append.mpr ⟨hd.desc, by simp, fun a ha b hb => ?_⟩
      rw [List.mem_singleton.mp hb]
      exact hd.above a ha lt hltm
    · intro r hr t ht
      rcases List.mem_append.mp hr with hr | hr
      · exact hd.above r hr t (hsort.1.mem_iff.mp (by simp [ht]))
      · rw [List.mem_singleton.mp hr]; exact hlt t ht
    · change ((s.remainder ++ [lt]) ++ init).Perm _
      rw [List.append_assoc]
      exact ((List.perm_append_comm).trans hsort.1).append_left _

/-- C98. The terms of the remainder are in strictly descending order. -/
theorem C98_descending (hO : Implements O m) (f : Poly F) (divs : List (Poly F))
    (hf : Poly.Clean (Fin n) f) (hd : ∀ g ∈ divs, Poly.Clean (Fin n) g) (r : Poly F)
    (qs : List (Poly F)) (h : Computer.divide O f divs = .ok (r, qs)) : Descending m r := by
  have hdB : ∀ g ∈ divs, Poly.Clean (Fin n) g ∧ Poly.In (fun _ : Fin n →₀ ℕ => True) g :=
    fun g h => ⟨hd g h, in_true⟩
  refine loop_partial (step := Computer.divideStep O divs)
    (fun s => DivInv m (fun _ => True) f divs s ∧ DivDesc m s) (fun x => Descending m x.1)
    ?_ ?_ ?_ h
  · rintro s s' ⟨hi, hdd⟩ hstep
    have h1 := (divideStep_spec (hO.poly (F := F)) polyPanic_allowed hdB s hi).of_ok hstep
    refine ⟨h1.1, ?_⟩
    rcases divideStep_cases hstep with ⟨ltF, qs, f', hlt, _, rfl⟩ | ⟨sorted, hs, h⟩
    · refine ⟨hdd.desc, fun r hr t ht => ?_⟩
      have hl := (leadingTerm_spec (hO.poly (F := F)) hi.clean in_true).of_ok hlt
      have h3 := hdd.above r hr ltF hl.1
      rw [hl.2.2.1] at h3
      refine lt_of_le_of_lt (mem_key_le_degree h1.1.clean ht) (lt_trans ?_ h3)
      have hne : Poly.den (Fin n) f' ≠ 0 := by
        rw [Ne, Poly.den_eq_zero_iff h1.1.clean]
        rintro rfl; simp at ht
      have hw := h1.2
      have hne' : Poly.den (Fin n) s.f ≠ 0 := by
        rw [Ne, Poly.den_eq_zero_iff hi.clean]
        intro h0; rw [h0] at hl; simp at hl
      unfold wdeg at hw
      rw [if_neg hne, if_neg hne'] at hw
      exact WithBot.coe_lt_coe.mp hw
    · exact (move_last hO hi.clean hdd hs h).1
  · rintro s r ⟨hi, hdd⟩ hstep
    have h1 := (divideStep_spec (hO.poly (F := F)) polyPanic_allowed hdB s hi).of_ok hstep
    rcases r with ⟨r, qs⟩
    simp only at h1
    rw [h1.1]; exact hdd.desc
  · refine ⟨divInv_init hf in_true, List.Pairwise.nil, fun r hr => absurd hr (by exact List.not_mem_nil)⟩

/-- C98. A polynomial none of whose monomials is divisible by a leading monomial of a divisor is its
own remainder, sorted, and all quotients are zero. -/
theorem C98_irreducible (hO : Implements O m) (f : Poly F) (divs : List (Poly F))
    (hf : Poly.Clean (Fin n) f) (hd : ∀ g ∈ divs, Poly.Clean (Fin n) g)
    (hirr : ∀ e ∈ (Poly.den (Fin n) f).support, ∀ g ∈ divs, Poly.den (Fin n) g ≠ 0 →
      ¬ m.degree (Poly.den (Fin n) g) ≤ e) :
    Spec (PolyPanic F) (Computer.divide O f divs) (fun (r, qs) =>
      r.Perm f ∧ Descending m r ∧ qs = List.replicate divs.length []) := by
  have hdB : ∀ g ∈ divs, Poly.Clean (Fin n) g ∧ Poly.In (fun _ : Fin n →₀ ℕ => True) g :=
    fun g h => ⟨hd g h, in_true⟩
  have hsp := C36_divide_identity hO f divs hf hd
  rw [spec_iff] at hsp ⊢
  refine ⟨hsp.1, ?_, hsp.2.2⟩
  rintro ⟨r, qs⟩ h
  suffices key : r.Perm f ∧ qs = List.replicate divs.length [] from
    ⟨key.1, C98_descending hO f divs hf hd r qs h, key.2⟩
  refine loop_partial (step := Computer.divideStep O divs)
    (fun s => DivInv m (fun _ => True) f divs s ∧ DivDesc m s ∧
      (s.remainder ++ s.f).Perm f ∧ s.quotients = List.replicate divs.length [])
    (fun x => x.1.Perm f ∧ x.2 = List.replicate divs.length []) ?_ ?_
    ⟨divInv_init hf in_true, ⟨List.Pairwise.nil, fun r hr => absurd hr (by exact List.not_mem_nil)⟩,
      by exact List.Perm.refl _, rfl⟩ h
  · rintro s s' ⟨hi, hdd, hperm, hq⟩ hstep
    have h1 := (divideStep_spec (hO.poly (F := F)) polyPanic_allowed hdB s hi).of_ok hstep
    refine ⟨h1.1, ?_⟩
    rcases divideStep_cases hstep with ⟨ltF, qs, f', hlt, hfor, rfl⟩ | ⟨sorted, hs, h⟩
    · exfalso
      have hl := (leadingTerm_spec (hO.poly (F := F)) hi.clean in_true).of_ok hlt
      have h2 := (divideFor_spec (hO.poly (F := F)) polyPanic_allowed hi.clean hl.2.1 trivial
        (divs.zip s.quotients) fun x hx => ⟨hd _ (List.of_mem_zip hx).1, in_true, by
          have := (List.of_mem_zip hx).2
          rw [hq] at this
          rw [(List.mem_replicate.mp this).2]; exact Poly.clean_nil⟩).of_ok hfor
      obtain ⟨_, pre, g, q, suf, q', a, hL, _, hg, _, _, _, _, hdeg, _⟩ := h2
      have hgm : g ∈ divs := (List.of_mem_zip (a := g) (b := q) (by rw [hL]; simp)).1
      have hltf : ltF ∈ f := hperm.mem_iff.mp (by simp [hl.1])
      refine hirr _ ((Poly.mem_support_den hf).mpr ⟨ltF, hltf, rfl⟩) g hgm ?_ ?_
      · rwa [Ne, Poly.den_eq_zero_iff (hd g hgm)]
      · rw [hdeg]; exact le_self_add
    · obtain ⟨a, b, c⟩ := move_last hO hi.clean hdd hs h
      exact ⟨a, b.trans hperm, c.trans hq⟩
  · rintro s ⟨r, qs⟩ ⟨hi, hdd, hperm, hq⟩ hstep
    have h1 := (divideStep_spec (hO.poly (F := F)) polyPanic_allowed hdB s hi).of_ok hstep
    simp only at h1 ⊢
    rw [h1.1, h1.2.1]
    rw [h1.2.2, List.append_nil] at hperm
    exact ⟨hperm, hq⟩

omit [RField F] in
theorem Descending.eq_of_perm {p q : Poly F} (hp : Descending m p) (hq : Descending m q)
    (h : p.Perm q) : p = q :=
  h.eq_of_pairwise (fun _ _ _ _ h1 h2 => absurd h1 (lt_asymm h2)) hp hq

/-- C98. Dividing a remainder again by the same divisors returns exactly the same term list, and zero
quotients. -/
theorem C98_idempotent (hO : Implements O m) (f : Poly F) (divs : List (Poly F))
    (hf : Poly.Clean (Fin n) f) (hd : ∀ g ∈ divs, Poly.Clean (Fin n) g) (r : Poly F)
    (qs : List (Poly F)) (h : Computer.divide O f divs = .ok (r, qs)) :
    Spec (PolyPanic F) (Computer.divide O r divs) (fun x =>
      x = (r, List.replicate divs.length [])) := by
  have h1 := (C36_divide_identity hO f divs hf hd).of_ok h
  have h2 := (C37_remainder_reduced hO f divs hf hd).of_ok h
  refine (C98_irreducible hO r divs h1.1 hd h2).imp ?_
  rintro ⟨r', qs'⟩ ⟨hp, hdesc, hq⟩
  rw [hq, hdesc.eq_of_perm (C98_descending hO f divs hf hd r qs h) hp]

example : letI := Rational.field .debug
    Computer.divide (OrdKind.lex.order .debug) [⟨⟨1, 1⟩, []⟩, ⟨⟨1, 1⟩, [1]⟩, ⟨⟨1, 1⟩, [0, 1]⟩]
      [cloG₁, cloG₂] = .ok ([⟨⟨1, 1⟩, [1]⟩, ⟨⟨1, 1⟩, [0, 1]⟩, ⟨⟨1, 1⟩, []⟩], [[], []]) :=
  loop_eq_of_iter (n := 10) (by decide) (by simp)

/-! ## C99 the algorithm decides whether the ideal is everything -/

theorem degree_eq_zero_iff_const {f : MvPolynomial (Fin n) K} (h : m.degree f = 0) :
    ∀ e ∈ f.support, e = 0 := by
  intro e he
  have := m.le_degree he
  rw [h, map_zero] at this
  have h0 : m.toSyn e = 0 := le_antisymm this (by
    rw [← map_zero m.toSyn]; exact m.toSyn_monotone zero_le)
  exact m.toSyn.injective (by rw [h0, map_zero])

/-- A canonical polynomial of leading exponent zero is a single constant term. -/
theorem clean_const {p : Poly F} (hp : Poly.Clean (Fin n) p) (h0 : Poly.den (Fin n) p ≠ 0)
    (h : m.degree (Poly.den (Fin n) p) = 0) : ∃ c : F, val c ≠ (0 : K) ∧ p = [⟨c, []⟩] := by
  have hm : ∀ t ∈ p, t.mdeg = [] := by
    intro t ht
    have := degree_eq_zero_iff_const h _ ((Poly.mem_support_den hp).mpr ⟨t, ht, rfl⟩)
    exact MDeg.toF_inj (hp.terms t ht).mdeg MDeg.zero_clean (hp.terms t ht).vars MDeg.InVars.zero
      (by rw [this]; exact MDeg.toF_zero.symm)
  rcases p with _ | ⟨t, _ | ⟨u, p⟩⟩
  · exact absurd rfl h0
  · refine ⟨t.coef, (hp.terms t (by simp)).ne, ?_⟩
    rcases t with ⟨c, d⟩
    have := hm ⟨c, d⟩ (by simp)
    simp only at this
    rw [this]
  · have := hp.nodup
    rw [List.map_cons, List.map_cons, hm t (by simp), hm u (by simp)] at this
    simp at this

/-- C99. The ideal generated by the input contains `1` exactly when the result is a single nonzero
constant. -/
theorem C99_unit_ideal (hO : Implements O m) (gens : List (Poly F))
    (hg : ∀ g ∈ gens, Poly.Clean (Fin n) g ∧ Poly.den (Fin n) g ≠ 0) :
    Spec (PolyPanic F) (Computer.buchbergerAlgorithm O gens) (fun G =>
      (1 : MvPolynomial (Fin n) K) ∈ Ideal.span (dens (Fin n) gens) ↔
        ∃ c : F, val c ≠ (0 : K) ∧ G = [[⟨c, []⟩]]) := by
  refine (algorithm_spec hO gens hg (fun _ => True) trivial fun _ _ => trivial).imp fun G h => ?_
  constructor
  · intro h1
    obtain ⟨_, ⟨g, hgm, rfl⟩, hg0, hle⟩ := h.2.1.2 1 h1 one_ne_zero
    rw [m.degree_one] at hle
    have hz : m.degree (Poly.den (Fin n) g) = 0 := le_antisymm hle zero_le
    obtain ⟨c, hc, rfl⟩ := clean_const (h.1 g hgm).1 hg0 hz
    refine ⟨c, hc, ?_⟩
    obtain ⟨pre, suf, rfl⟩ := List.append_of_mem hgm
    have hinc := h.2.2.2.1
    unfold LeadsIncomparable at hinc
    rw [List.pairwise_append, List.pairwise_cons] at hinc
    have hpre : pre = [] := by
      rcases pre with _ | ⟨q, pre⟩
      · rfl
      · have := (hinc.2.2 q (by simp) [⟨c, []⟩] (by simp)).2
        rw [hz] at this
        exact absurd zero_le this
    have hsuf : suf = [] := by
      rcases suf with _ | ⟨q, suf⟩
      · rfl
      · have := (hinc.2.1.1 q (by simp)).1
        rw [hz] at this
        exact absurd zero_le this
    rw [hpre, hsuf]; rfl
  · rintro ⟨c, hc, rfl⟩
    have hmem := h.2.1.1 (mem_dens (List.mem_singleton.mpr rfl))
    have hden : Poly.den (Fin n) [(⟨c, []⟩ : Term F)] = C (val c : K) := by
      rw [Poly.den_cons, Poly.den_nil, add_zero, Term.den]
      change monomial (MDeg.toF (Fin n) MDeg.zero) _ = _
      rw [MDeg.toF_zero]; rfl
    rw [hden] at hmem
    have := Ideal.mul_mem_left _ (C (val c : K)⁻¹) hmem
    rwa [← C_mul, inv_mul_cancel₀ hc, C_1] at this

/-- C99 (Nullstellensatz). The system `g = 0` for `g` in the input has a solution with coordinates
in an algebraic closure exactly when the result is not a single constant. -/
theorem C99_solvable (hO : Implements O m) (gens : List (Poly F))
    (hg : ∀ g ∈ gens, Poly.Clean (Fin n) g ∧ Poly.den (Fin n) g ≠ 0) :
    Spec (PolyPanic F) (Computer.buchbergerAlgorithm O gens) (fun G =>
      (∃ x : Fin n → AlgebraicClosure K, ∀ g ∈ gens,
        aeval x (Poly.den (Fin n) g : MvPolynomial (Fin n) K) = 0) ↔ ¬ ∃ c : F, G = [[⟨c, []⟩]]) := by
  have hcl := C43_ideal hO gens hg
  refine ((C99_unit_ideal hO gens hg).and hcl).imp fun G hG => ?_
  have hc : (∃ c : F, G = [[⟨c, []⟩]]) ↔ ∃ c : F, val c ≠ (0 : K) ∧ G = [[⟨c, []⟩]] := by
    constructor
    · rintro ⟨c, rfl⟩
      exact ⟨c, ((hG.2.1 _ (List.mem_singleton.mpr rfl)).1.terms _ (List.mem_singleton.mpr rfl)).ne, rfl⟩
    · rintro ⟨c, _, h⟩; exact ⟨c, h⟩
  rw [hc, ← hG.1, ← Ideal.eq_top_iff_one]
  have hz : (∃ x : Fin n → AlgebraicClosure K, ∀ g ∈ gens,
      aeval x (Poly.den (Fin n) g : MvPolynomial (Fin n) K) = 0) ↔
      (zeroLocus (AlgebraicClosure K) (Ideal.span (dens (Fin n) gens :
        Set (MvPolynomial (Fin n) K)))).Nonempty := by
    rw [zeroLocus_span]
    constructor
    · rintro ⟨x, hx⟩
      refine ⟨x, ?_⟩
      rintro _ ⟨g, hg, rfl⟩
      exact hx g hg
    · rintro ⟨x, hx⟩
      exact ⟨x, fun g hg => hx _ (mem_dens hg)⟩
  rw [hz]
  constructor
  · rintro ⟨x, hx⟩ ht
    rw [ht, zeroLocus_top] at hx
    exact hx
  · intro ht
    by_contra hne
    rw [Set.not_nonempty_iff_eq_empty] at hne
    have := vanishingIdeal_zeroLocus_eq_radical (K := AlgebraicClosure K)
      (Ideal.span (dens (Fin n) gens : Set (MvPolynomial (Fin n) K)))
    rw [hne, vanishingIdeal_empty] at this
    exact ht (Ideal.radical_eq_top.mp this.symm)

/-- `x, x - 1` generate everything, `x y - 1, y^2 - 1` do not. -/
example : letI := Rational.field .debug
    letI := Rational.lawful
    (∀ g ∈ [oneX, xSubOne], Poly.Clean (Fin 1) g ∧ Poly.den (Fin 1) g ≠ 0) ∧
    Computer.buchbergerAlgorithm (OrdKind.lex.order .debug) [oneX, xSubOne] =
      .ok [[⟨⟨1, 1⟩, []⟩]] ∧
    (∀ g ∈ [cloG₁, cloG₂], Poly.Clean (Fin 2) g ∧ Poly.den (Fin 2) g ≠ 0) ∧
    Computer.buchbergerAlgorithm (OrdKind.lex.order .debug) [cloG₁, cloG₂] =
      .ok [[⟨⟨1, 1⟩, [0, 2]⟩, ⟨⟨-1, 1⟩, []⟩], [⟨⟨1, 1⟩, [1]⟩, ⟨⟨-1, 1⟩, [0, 1]⟩]] := by
  let _ := Rational.field .debug
  exact ⟨sampleGens (by decide),
    (Computer.buchbergerAlgorithmN_approx 30 _).eq (by decide +kernel) (by simp), clo_gens,
    (Computer.buchbergerAlgorithmN_approx 30 _).eq (by decide +kernel) (by simp)⟩

/-! ## C100 remainders modulo a Gröbner basis represent the quotient ring -/

/-- C100. Two polynomials have the same remainder exactly when they are congruent modulo the ideal. -/
theorem C100_congruence (hO : Implements O m) (f g : Poly F) (G : List (Poly F))
    (hf : Poly.Clean (Fin n) f) (hg : Poly.Clean (Fin n) g) (hG : GroebnerList m G)
    (r₁ r₂ : Poly F) (qs₁ qs₂ : List (Poly F)) (h₁ : Computer.divide O f G = .ok (r₁, qs₁))
    (h₂ : Computer.divide O g G = .ok (r₂, qs₂)) :
    SameTerms r₁ r₂ ↔ Poly.den (Fin n) f - Poly.den (Fin n) g ∈ Ideal.span (dens (Fin n) G) := by
  have s₁ := (divide_gens hO.poly polyPanic_allowed hG.1 hf).of_ok h₁
  have s₂ := (divide_gens hO.poly polyPanic_allowed hG.1 hg).of_ok h₂
  simp only at s₁ s₂
  constructor
  · intro h
    have hden : Poly.den (Fin n) r₁ = Poly.den (Fin n) r₂ := Poly.den_eq_of_perm h
    have := Ideal.sub_mem _ s₁.2.2.1 s₂.2.2.1
    rw [hden] at this
    rwa [sub_sub_sub_cancel_right] at this
  · intro h
    refine Poly.den_inj s₁.1 s₂.1 ?_
    refine IsGroebner.unique hG.isGroebner hG.isGroebner ?_ (fun e he => (s₁.2.1 e he).2)
      fun e he => (s₂.2.1 e he).2
    have := Ideal.sub_mem _ (Ideal.add_mem _ h s₂.2.2.1) s₁.2.2.1
    have he : Poly.den (Fin n) f - Poly.den (Fin n) g + (Poly.den (Fin n) g - Poly.den (Fin n) r₂) -
        (Poly.den (Fin n) f - Poly.den (Fin n) r₁) =
        (Poly.den (Fin n) r₁ - Poly.den (Fin n) r₂ : MvPolynomial (Fin n) K) := by ring
    rwa [he] at this

/-- C100. The remainder of a sum is the sum of the remainders. -/
theorem C100_additive (hO : Implements O m) (f g h : Poly F) (G : List (Poly F))
    (hf : Poly.Clean (Fin n) f) (hg : Poly.Clean (Fin n) g) (hG : GroebnerList m G)
    (hs : Poly.add f g = .ok h)
    (r₁ r₂ r : Poly F) (qs₁ qs₂ qs : List (Poly F)) (h₁ : Computer.divide O f G = .ok (r₁, qs₁))
    (h₂ : Computer.divide O g G = .ok (r₂, qs₂)) (h₃ : Computer.divide O h G = .ok (r, qs)) :
    Poly.den (Fin n) r = (Poly.den (Fin n) r₁ + Poly.den (Fin n) r₂ : MvPolynomial (Fin n) K) := by
  classical
  have hh := (Poly.add_spec hf hg.oks).of_ok hs
  have s₁ := (divide_gens hO.poly polyPanic_allowed hG.1 hf).of_ok h₁
  have s₂ := (divide_gens hO.poly polyPanic_allowed hG.1 hg).of_ok h₂
  have s₃ := (divide_gens hO.poly polyPanic_allowed hG.1 hh.1).of_ok h₃
  simp only at s₁ s₂ s₃
  refine IsGroebner.unique hG.isGroebner hG.isGroebner ?_ (fun e he => (s₃.2.1 e he).2) ?_
  · have := Ideal.sub_mem _ (Ideal.add_mem _ s₁.2.2.1 s₂.2.2.1) s₃.2.2.1
    rw [hh.2] at this
    have he : Poly.den (Fin n) f - Poly.den (Fin n) r₁ + (Poly.den (Fin n) g - Poly.den (Fin n) r₂) -
        (Poly.den (Fin n) f + Poly.den (Fin n) g - Poly.den (Fin n) r) =
        (Poly.den (Fin n) r - (Poly.den (Fin n) r₁ + Poly.den (Fin n) r₂) :
          MvPolynomial (Fin n) K) := by ring
    rwa [he] at this
  · intro e he
    rcases Finset.mem_union.mp (support_add he) with h | h
    · exact (s₁.2.1 e h).2
    · exact (s₂.2.1 e h).2

/-- C100. The remainder of a product is the remainder of the product of the remainders. -/
theorem C100_multiplicative (hO : Implements O m) (f g h k : Poly F) (G : List (Poly F))
    (hf : Poly.Clean (Fin n) f) (hg : Poly.Clean (Fin n) g) (hG : GroebnerList m G)
    (r₁ r₂ : Poly F) (qs₁ qs₂ : List (Poly F)) (h₁ : Computer.divide O f G = .ok (r₁, qs₁))
    (h₂ : Computer.divide O g G = .ok (r₂, qs₂)) (hs : Poly.mul f g = .ok h)
    (hk : Poly.mul r₁ r₂ = .ok k) (r r' : Poly F) (qs qs' : List (Poly F))
    (h₃ : Computer.divide O h G = .ok (r, qs)) (h₄ : Computer.divide O k G = .ok (r', qs')) :
    SameTerms r r' := by
  have s₁ := (divide_gens hO.poly polyPanic_allowed hG.1 hf).of_ok h₁
  have s₂ := (divide_gens hO.poly polyPanic_allowed hG.1 hg).of_ok h₂
  simp only at s₁ s₂
  have hh := (Poly.mul_spec (E := fun _ => True) hf.oks hg (fun _ _ => trivial) (Or.inl trivial)).of_ok hs
  have hk' := (Poly.mul_spec (E := fun _ => True) s₁.1.oks s₂.1 (fun _ _ => trivial) (Or.inl trivial)).of_ok hk
  rw [C100_congruence hO h k G hh.1 hk'.1 hG r r' qs qs' h₃ h₄, hh.2, hk'.2]
  have he : Poly.den (Fin n) f * Poly.den (Fin n) g - Poly.den (Fin n) r₁ * Poly.den (Fin n) r₂ =
      (Poly.den (Fin n) f * (Poly.den (Fin n) g - Poly.den (Fin n) r₂) +
        Poly.den (Fin n) r₂ * (Poly.den (Fin n) f - Poly.den (Fin n) r₁) :
          MvPolynomial (Fin n) K) := by ring
  rw [he]
  exact Ideal.add_mem _ (Ideal.mul_mem_left _ _ s₂.2.2.1) (Ideal.mul_mem_left _ _ s₁.2.2.1)

/-! ## C101 elimination -/

theorem mem_supported_iff {S : Set (Fin n)} {f : MvPolynomial (Fin n) K} :
    f ∈ supported K S ↔ ∀ e ∈ f.support, ∀ i, e i ≠ 0 → i ∈ S := by
  rw [mem_supported]
  constructor
  · intro h e he i hi
    exact h ((mem_vars_iff_mem_support i).mpr ⟨e, he, Finsupp.mem_support_iff.mpr hi⟩)
  · intro h i hi
    obtain ⟨e, he, hi⟩ := (mem_vars_iff_mem_support i).mp hi
    exact h e he i (Finsupp.mem_support_iff.mp hi)

/-- Monomials below a monomial in the variables `S` are in the variables `S`. -/
def Eliminates (m : MonomialOrder (Fin n)) (S : Set (Fin n)) : Prop :=
  ∀ a b : Fin n →₀ ℕ, m.toSyn a ≤ m.toSyn b → (∀ i, b i ≠ 0 → i ∈ S) → ∀ i, a i ≠ 0 → i ∈ S

theorem elimination {S : Set (Fin n)} (hS : Eliminates m S) {I : Ideal (MvPolynomial (Fin n) K)}
    {G : Set (MvPolynomial (Fin n) K)} (hG : IsGroebner m I G) (f : MvPolynomial (Fin n) K) :
    (f ∈ I ∧ f ∈ supported K S) ↔
      f ∈ Submodule.span (supported K S) {g | g ∈ G ∧ g ∈ supported K S} := by
  classical
  constructor
  · rintro ⟨hf, hfS⟩
    generalize hd : wdeg m f = d
    induction d using (wdeg_wf m).induction generalizing f with
    | _ d ih =>
      by_cases hf0 : f = 0
      · rw [hf0]; exact Submodule.zero_mem _
      obtain ⟨g, hg, hg0, hle⟩ := hG.2 f hf hf0
      have hdS := mem_supported_iff.mp hfS _ (m.degree_mem_support hf0)
      have hgS : g ∈ supported K S := by
        refine mem_supported_iff.mpr fun e he => hS e (m.degree g) (m.le_degree he) fun i hi => ?_
        refine hdS i fun h0 => hi ?_
        have := hle i
        omega
      have haS : (monomial (m.degree f - m.degree g) (m.leadingCoeff f * (m.leadingCoeff g)⁻¹) :
          MvPolynomial (Fin n) K) ∈ supported K S := by
        refine mem_supported_iff.mpr fun e he i hi => hdS i fun h0 => hi ?_
        have : e = m.degree f - m.degree g := by simpa using support_monomial_subset he
        rw [this, Finsupp.tsub_apply, h0, zero_tsub]
      set a : MvPolynomial (Fin n) K := monomial (m.degree f - m.degree g)
        (m.leadingCoeff f * (m.leadingCoeff g)⁻¹) with ha
      have hc : m.leadingCoeff f * (m.leadingCoeff g)⁻¹ ≠ 0 :=
        mul_ne_zero (m.leadingCoeff_ne_zero_iff.mpr hf0)
          (inv_ne_zero (m.leadingCoeff_ne_zero_iff.mpr hg0))
      obtain ⟨h1, h2⟩ := den_mul_monomial (m := m) hg0 (e := m.degree f - m.degree g) hc
      have hag : f = (f - g * a) + g * a := by ring
      rw [hag]
      refine Submodule.add_mem _ (ih _ ?_ _ (I.sub_mem hf (I.mul_mem_right _ (hG.1 hg)))
        (sub_mem hfS (mul_mem hgS haS)) rfl) ?_
      · rw [← hd]
        refine wdeg_lt m hf0 fun hne => degree_sub_lt m ?_ ?_ hne
        · rw [h1, add_tsub_cancel_of_le hle]
        · rw [h2, mul_comm, mul_assoc, inv_mul_cancel₀ (m.leadingCoeff_ne_zero_iff.mpr hg0), mul_one]
      · have : g * a = (⟨a, haS⟩ : supported K S) • g := by
          rw [Subalgebra.smul_def, smul_eq_mul, mul_comm]
        rw [this]
        exact Submodule.smul_mem _ _ (Submodule.subset_span ⟨hg, hgS⟩)
  · intro h
    induction h using Submodule.span_induction with
    | mem x hx => exact ⟨hG.1 hx.1, hx.2⟩
    | zero => exact ⟨I.zero_mem, zero_mem _⟩
    | add x y _ _ hx hy => exact ⟨I.add_mem hx.1 hy.1, add_mem hx.2 hy.2⟩
    | smul c x _ hx =>
      rw [Subalgebra.smul_def, smul_eq_mul]
      exact ⟨I.mul_mem_left _ hx.1, mul_mem c.2 hx.2⟩

theorem lex_eliminates (k : ℕ) : Eliminates (OrdKind.lex.mathlib n) {i : Fin n | k ≤ i.val} := by
  intro a b hab hb i hi
  rcases hab.lt_or_eq with h | h
  · rw [OrdKind.mathlib_lt] at h
    obtain ⟨j, hj, hlt⟩ := h
    by_contra hik
    have hik : i.val < k := not_le.mp hik
    have hjb : k ≤ j := by
      by_contra hjk
      have : extend b j = 0 := by
        unfold extend
        split
        · rename_i hjn
          by_contra h0
          exact hjk (hb ⟨j, hjn⟩ h0)
        · rfl
      omega
    have := hj i.val (by omega)
    have e1 : extend a i.val = a i := by simp [extend]
    have e2 : extend b i.val = b i := by simp [extend]
    rw [e1, e2] at this
    exact absurd (hb i (this ▸ hi)) (by simpa using hik)
  · rw [(OrdKind.lex.mathlib n).toSyn.injective h] at hi
    exact hb i hi

theorem revLex_eliminates (k : ℕ) :
    Eliminates (OrdKind.revLex.mathlib n) {i : Fin n | i.val < k} := by
  intro a b hab hb i hi
  rcases hab.lt_or_eq with h | h
  · rw [OrdKind.mathlib_lt] at h
    obtain ⟨j, hj, hlt⟩ := h
    by_contra hik
    have hik : k ≤ i.val := not_lt.mp hik
    have hjb : j < k := by
      by_contra hjk
      have : extend b j = 0 := by
        unfold extend
        split
        · rename_i hjn
          by_contra h0
          exact hjk (hb ⟨j, hjn⟩ h0)
        · rfl
      omega
    have := hj i.val (by omega)
    have e1 : extend a i.val = a i := by simp [extend]
    have e2 : extend b i.val = b i := by simp [extend]
    rw [e1, e2] at this
    exact absurd (hb i (this ▸ hi)) (by simpa using hik)
  · rw [(OrdKind.revLex.mathlib n).toSyn.injective h] at hi
    exact hb i hi

/-- C101. With `Lex`, the elements of the result that do not involve `x_0, …, x_{k-1}` generate the
elimination ideal: the elements of the ideal that do not involve these variables, as an ideal of the
polynomial ring in the other variables. -/
theorem C101_elimination (gens : List (Poly F))
    (hg : ∀ g ∈ gens, Poly.Clean (Fin n) g ∧ Poly.den (Fin n) g ≠ 0) (k : ℕ) :
    Spec (PolyPanic F) (Computer.buchbergerAlgorithm (OrdKind.lex.order .debug) gens) (fun G =>
      ∀ f : MvPolynomial (Fin n) K,
        (f ∈ Ideal.span (dens (Fin n) gens) ∧ f ∈ supported K {i : Fin n | k ≤ i.val}) ↔
        f ∈ Submodule.span (supported K {i : Fin n | k ≤ i.val})
          {g | g ∈ dens (Fin n) G ∧ g ∈ supported K {i : Fin n | k ≤ i.val}}) :=
  (algorithm_spec (OrdKind.implements .lex n) gens hg (fun _ => True) trivial fun _ _ => trivial).imp
    fun _ h f => elimination (lex_eliminates k) h.2.1 f

/-- C101. With `RevLex`, the same for the variables `x_k, …, x_{n-1}`. -/
theorem C101_elimination_rev (gens : List (Poly F))
    (hg : ∀ g ∈ gens, Poly.Clean (Fin n) g ∧ Poly.den (Fin n) g ≠ 0) (k : ℕ) :
    Spec (PolyPanic F) (Computer.buchbergerAlgorithm (OrdKind.revLex.order .debug) gens) (fun G =>
      ∀ f : MvPolynomial (Fin n) K,
        (f ∈ Ideal.span (dens (Fin n) gens) ∧ f ∈ supported K {i : Fin n | i.val < k}) ↔
        f ∈ Submodule.span (supported K {i : Fin n | i.val < k})
          {g | g ∈ dens (Fin n) G ∧ g ∈ supported K {i : Fin n | i.val < k}}) :=
  (algorithm_spec (OrdKind.implements .revLex n) gens hg (fun _ => True) trivial
    fun _ _ => trivial).imp fun _ h f => elimination (revLex_eliminates k) h.2.1 f

/-- The hypotheses hold for `x y - 1, y^2 - 1`; the run above shows the element `y^2 - 1` without
`x`. -/
example : letI := Rational.field .debug
    letI := Rational.lawful
    ∀ g ∈ [cloG₁, cloG₂], Poly.Clean (Fin 2) g ∧ Poly.den (Fin 2) g ≠ 0 := clo_gens

/-! ## C102 the result is a fixed point -/

/-- C102. `buchberger_algorithm` applied to its own result changes nothing, and
`buchberger_criterion` answers `true` on it. -/
theorem C102_fixed_point (hO : Implements O m) (gens : List (Poly F))
    (hg : ∀ g ∈ gens, Poly.Clean (Fin n) g ∧ Poly.den (Fin n) g ≠ 0) (G : List (Poly F))
    (h : Computer.buchbergerAlgorithm O gens = .ok G) :
    Spec (PolyPanic F) (Computer.buchbergerAlgorithm O G) (fun G' => G' = G) ∧
    Spec (PolyPanic F) (Computer.buchbergerCriterion O G) (fun b => b = true) := by
  obtain ⟨hok, hGr, _, hinc, hred⟩ :=
    (algorithm_spec hO gens hg (fun _ => True) trivial fun _ _ => trivial).of_ok h
  have hspan := hGr.span_eq
  have hpair := List.pairwise_iff_getElem.mp hinc
  constructor
  · unfold Computer.buchbergerAlgorithm
    have hext : Spec (PolyPanic F) (Computer.buchbergerExtend O G) (· = G) := by
      unfold Computer.buchbergerExtend
      refine loop_spec (· < ·) wellFounded_lt (fun s : List (Poly F) × ℕ => s.1 = G)
        (fun s => G.length - s.2) _ ?_ _ rfl
      rintro ⟨G₁, i⟩ hG₁
      simp only at hG₁
      subst hG₁
      unfold Computer.extendStep
      simp only
      split
      · rename_i hi
        refine (extendFor_spec (hO.poly (F := F)) polyPanic_allowed hok hi (List.range i)
          fun j hj => by have := List.mem_range.mp hj; omega).bind ?_
        rintro (_ | r) hr
        · exact ⟨rfl, by change _ - (i + 1) < _ - i; omega⟩
        · exfalso
          obtain ⟨hrc, hr0, hrm, _, hdeg⟩ := hr
          rw [hspan] at hrm
          have hr0' : Poly.den (Fin n) r ≠ 0 := by rwa [Ne, Poly.den_eq_zero_iff hrc]
          obtain ⟨p, hp, hp0, hle⟩ := hGr.2 _ hrm hr0'
          exact hdeg p hp hp0 hle
      · rfl
    refine hext.bind fun G₁ h₁ => ?_
    rw [h₁]
    have hmin : Spec (PolyPanic F) (Computer.buchbergerMinimize O G) (· = G) := by
      unfold Computer.buchbergerMinimize
      refine loop_spec (· < ·) wellFounded_lt (fun s : List (Poly F) => s = G) List.length _ ?_ _ rfl
      rintro _ rfl
      unfold Computer.minimizeStep
      refine (minimizeFor_spec (hO.poly (F := F)) hok _ fun x hx => hx).bind ?_
      rintro (_ | i) hi
      · rfl
      · obtain ⟨hi, j, hj, hji, hle⟩ := hi
        exfalso
        rcases lt_or_gt_of_ne hji with hlt | hgt
        · exact (hpair j i hj hi hlt).1 hle
        · exact (hpair i j hi hj hgt).2 hle
    refine hmin.bind fun G₂ h₂ => ?_
    rw [h₂]
    unfold Computer.buchbergerReduce
    refine loop_spec (· < ·) wellFounded_lt (fun s : List (Poly F) => s = G) List.length _ ?_ _ rfl
    rintro _ rfl
    unfold Computer.reduceStep
    refine (reduceFor_spec (hO.poly (F := F)) hok _ fun x hx => hx).bind ?_
    rintro (_ | i) hi
    · rfl
    · obtain ⟨hi, j, hj, hji, e, he, hle⟩ := hi
      exfalso
      refine hred _ (mem_dens (List.getElem_mem hi)) _ (mem_dens (List.getElem_mem hj)) ?_ e he hle
      intro heq
      rcases lt_or_gt_of_ne hji with hlt | hgt
      · exact (hpair j i hj hi hlt).1 (by rw [heq])
      · exact (hpair i j hi hj hgt).1 (by rw [heq])
  · refine (buchbergerCriterion_spec hO.poly polyPanic_allowed hok).imp fun b hb => ?_
    rw [hb, hspan]
    exact hGr

/-! ## C103 zero among the generators -/

end

section
variable {F : Type} [RField F] {O : MOrder}

theorem tryReduce_some {f g s : Poly F} (h : Computer.tryReduce O f g = .ok (some s)) :
    f ≠ [] ∧ g ≠ [] := by
  constructor
  · rintro rfl; cases h
  · rintro rfl
    unfold Computer.tryReduce at h
    rw [bind_eq_ok] at h
    obtain ⟨o, _, h⟩ := h
    rcases o with _ | t <;> cases h

theorem index_eq_ok {α : Type} {l : List α} {i : ℕ} {a : α} (h : Computer.index l i = .ok a) :
    l[i]? = some a := by
  unfold Computer.index at h
  split at h
  · rename_i b hb; cases h; exact hb
  · cases h

theorem extendFor_none {gens : List (Poly F)} {i : ℕ} {L : List ℕ}
    (h : Computer.extendFor O gens i L = .ok none) :
    ∀ j ∈ L, gens[i]? ≠ some [] ∧ gens[j]? ≠ some [] := by
  induction L with
  | nil => simp
  | cons j rest ih =>
    unfold Computer.extendFor at h
    rw [bind_eq_ok] at h
    obtain ⟨gi, hi, h⟩ := h
    rw [bind_eq_ok] at h
    obtain ⟨gj, hj, h⟩ := h
    rw [bind_eq_ok] at h
    obtain ⟨o, ho, h⟩ := h
    rcases o with _ | s
    · cases h
    dsimp only at h
    rw [bind_eq_ok] at h
    obtain ⟨⟨r, qs⟩, _, h⟩ := h
    dsimp only at h
    rw [bind_eq_ok] at h
    obtain ⟨lc, _, h⟩ := h
    rcases lc with _ | lc
    · dsimp only at h
      intro k hk
      rcases List.mem_cons.mp hk with rfl | hk
      · obtain ⟨h1, h2⟩ := tryReduce_some ho
        rw [index_eq_ok hi, index_eq_ok hj]
        exact ⟨by simpa using h1, by simpa using h2⟩
      · exact ih h k hk
    · dsimp only at h
      rw [bind_eq_ok] at h
      obtain ⟨r', _, h⟩ := h
      cases h

theorem extend_nonzero {gens R : List (Poly F)} (h : Computer.buchbergerExtend O gens = .ok R)
    (hl : 2 ≤ gens.length) : ∀ g ∈ gens, g ≠ [] := by
  have key := loop_partial (step := Computer.extendStep O)
    (fun s : List (Poly F) × ℕ => gens <+: s.1 ∧
      ∀ a b, b < a → a < s.2 → s.1[a]? ≠ some [] ∧ s.1[b]? ≠ some [])
    (fun R => gens <+: R ∧ ∀ a b, b < a → a < R.length → R[a]? ≠ some [] ∧ R[b]? ≠ some [])
    ?_ ?_ ⟨List.prefix_rfl, fun a b _ h => absurd h (Nat.not_lt_zero _)⟩ h
  · rintro _ hg rfl
    obtain ⟨suf, rfl⟩ := key.1
    obtain ⟨k, hk, hz⟩ := List.mem_iff_getElem.mp hg
    have hz' : (gens ++ suf)[k]? = some [] := by
      rw [List.getElem?_append_left hk, List.getElem?_eq_getElem hk, hz]
    rcases k with _ | k
    · exact (key.2 1 0 (by omega) (by rw [List.length_append]; omega)).2 hz'
    · exact (key.2 (k + 1) 0 (by omega) (by rw [List.length_append]; omega)).1 hz'
  · rintro ⟨G, i⟩ ⟨G', i'⟩ ⟨hpre, hno⟩ hstep
    simp only at hpre hno
    unfold Computer.extendStep at hstep
    simp only at hstep
    split at hstep
    · rw [bind_eq_ok] at hstep
      obtain ⟨o, ho, hstep⟩ := hstep
      rcases o with _ | r
      · cases hstep
        refine ⟨hpre, fun a b hb ha => ?_⟩
        rcases Nat.lt_succ_iff_lt_or_eq.mp ha with h | rfl
        · exact hno a b hb h
        · exact extendFor_none ho b (List.mem_range.mpr hb)
      · cases hstep
        exact ⟨hpre.trans (List.prefix_append _ _), fun a b _ h => absurd h (Nat.not_lt_zero _)⟩
    · cases hstep
  · rintro ⟨G, i⟩ R ⟨hpre, hno⟩ hstep
    simp only at hpre hno
    unfold Computer.extendStep at hstep
    simp only at hstep
    split at hstep
    · rw [bind_eq_ok] at hstep
      obtain ⟨o, ho, hstep⟩ := hstep
      rcases o with _ | r <;> cases hstep
    · cases hstep
      exact ⟨hpre, fun a b hb ha => hno a b hb (by omega)⟩

/-- C103. With two or more generators, one of them zero, `buchberger_algorithm` never returns: for
every coefficient type, order and build. -/
theorem C103_never_returns (gens : List (Poly F)) (hl : 2 ≤ gens.length) (h0 : [] ∈ gens)
    (G : List (Poly F)) : Computer.buchbergerAlgorithm O gens ≠ .ok G := by
  intro h
  unfold Computer.buchbergerAlgorithm at h
  rw [bind_eq_ok] at h
  obtain ⟨R, hR, _⟩ := h
  exact extend_nonzero hR hl [] h0 rfl

theorem criterionFor_true {gens : List (Poly F)} {L : List (ℕ × ℕ)}
    (h : Computer.criterionFor O gens L = .ok true) :
    ∀ x ∈ L, gens[x.1]? ≠ some [] ∧ gens[x.2]? ≠ some [] := by
  induction L with
  | nil => simp
  | cons x rest ih =>
    rcases x with ⟨i, j⟩
    unfold Computer.criterionFor at h
    rw [bind_eq_ok] at h
    obtain ⟨gi, hi, h⟩ := h
    rw [bind_eq_ok] at h
    obtain ⟨gj, hj, h⟩ := h
    rw [bind_eq_ok] at h
    obtain ⟨o, ho, h⟩ := h
    rcases o with _ | s
    · cases h
    dsimp only at h
    rw [bind_eq_ok] at h
    obtain ⟨⟨r, qs⟩, _, h⟩ := h
    dsimp only at h
    split at h
    · cases h
    · intro y hy
      rcases List.mem_cons.mp hy with rfl | hy
      · obtain ⟨h1, h2⟩ := tryReduce_some ho
        rw [index_eq_ok hi, index_eq_ok hj]
        exact ⟨by simpa using h1, by simpa using h2⟩
      · exact ih h y hy

/-- C103. Nor does `buchberger_criterion` ever answer `true` then. -/
theorem C103_never_true (gens : List (Poly F)) (hl : 2 ≤ gens.length) (h0 : [] ∈ gens) :
    Computer.buchbergerCriterion O gens ≠ .ok true := by
  intro h
  have key := criterionFor_true h
  obtain ⟨k, hk, hz⟩ := List.mem_iff_getElem.mp h0
  have hz' : gens[k]? = some [] := by rw [List.getElem?_eq_getElem hk, hz]
  rcases k with _ | k
  · exact (key (0, 1) (mem_pairsIter.mpr ⟨hk, by omega, by omega⟩)).1 hz'
  · exact (key (k + 1, 0) (mem_pairsIter.mpr ⟨hk, by omega, by omega⟩)).1 hz'

/-- C103. A single generator is returned as it is, zero or not. -/
theorem C103_single (p : Poly F) : Computer.buchbergerAlgorithm O [p] = .ok [p] ∧
    Computer.buchbergerAlgorithm O ([] : List (Poly F)) = .ok [] := by
  unfold Computer.buchbergerAlgorithm
  have h1 : Computer.buchbergerExtend O [p] = .ok [p] :=
    loop_eq_of_iter (n := 3) (by rfl) (by simp)
  have h2 : Computer.buchbergerMinimize O [p] = .ok [p] :=
    loop_eq_of_iter (n := 2) (by rfl) (by simp)
  have h3 : Computer.buchbergerReduce O [p] = .ok [p] :=
    loop_eq_of_iter (n := 2) (by rfl) (by simp)
  have e1 : Computer.buchbergerExtend O ([] : List (Poly F)) = .ok [] :=
    loop_eq_of_iter (n := 3) (by rfl) (by simp)
  have e2 : Computer.buchbergerMinimize O ([] : List (Poly F)) = .ok [] :=
    loop_eq_of_iter (n := 2) (by rfl) (by simp)
  have e3 : Computer.buchbergerReduce O ([] : List (Poly F)) = .ok [] :=
    loop_eq_of_iter (n := 2) (by rfl) (by simp)
  rw [h1, e1]
  simp only [bind_ok]
  rw [h2, e2]
  simp only [bind_ok]
  exact ⟨h3, e3⟩

/-- `[0, x]`: the call panics. -/
example : letI := Rational.field .debug
    Computer.buchbergerAlgorithm (OrdKind.lex.order .debug) [[], oneX] = .panic .unwrapNone := by
  let _ := Rational.field .debug
  exact (Computer.buchbergerAlgorithmN_approx 30 _).eq (by decide +kernel) (by simp)

/-! ## C104 a returned basis is reduced, for every coefficient type -/

omit [RField F] in
theorem unwrapLeadingTerm_eq_ok {g : Poly F} {t : Term F}
    (h : Computer.unwrapLeadingTerm O g = .ok t) : Computer.leadingTerm O g = .ok (some t) := by
  unfold Computer.unwrapLeadingTerm at h
  rw [bind_eq_ok] at h
  obtain ⟨o, ho, h⟩ := h
  rcases o with _ | u
  · cases h
  · cases h; exact ho

theorem reduceTerms_false {gj : Poly F} {ts : List (Term F)}
    (h : Computer.reduceTerms O gj ts = .ok false) :
    ∀ t ∈ ts, ∃ lt, Computer.leadingTerm O gj = .ok (some lt) ∧ lt.divides t = false := by
  induction ts with
  | nil => simp
  | cons t ts ih =>
    unfold Computer.reduceTerms at h
    rw [bind_eq_ok] at h
    obtain ⟨lt, hlt, h⟩ := h
    split at h
    · cases h
    · rename_i hd
      intro u hu
      rcases List.mem_cons.mp hu with rfl | hu
      · exact ⟨lt, unwrapLeadingTerm_eq_ok hlt, by simpa using hd⟩
      · exact ih h u hu

theorem reduceFor_none {gens : List (Poly F)} {L : List (ℕ × ℕ)}
    (h : Computer.reduceFor O gens L = .ok none) :
    ∀ x ∈ L, ∀ (hi : x.1 < gens.length) (hj : x.2 < gens.length), ∀ t ∈ gens[x.1],
      ∃ lt, Computer.leadingTerm O gens[x.2] = .ok (some lt) ∧ lt.divides t = false := by
  induction L with
  | nil => simp
  | cons x rest ih =>
    rcases x with ⟨i, j⟩
    unfold Computer.reduceFor at h
    rw [bind_eq_ok] at h
    obtain ⟨gi, hgi, h⟩ := h
    rw [bind_eq_ok] at h
    obtain ⟨gj, hgj, h⟩ := h
    rw [bind_eq_ok] at h
    obtain ⟨b, hb, h⟩ := h
    split at h
    · cases h
    · rename_i hbf
      have hbf : b = false := by simpa using hbf
      subst hbf
      intro y hy
      rcases List.mem_cons.mp hy with rfl | hy
      · intro hi hj t ht
        have e1 := index_eq_ok hgi
        have e2 := index_eq_ok hgj
        rw [List.getElem?_eq_getElem hi] at e1
        rw [List.getElem?_eq_getElem hj] at e2
        cases e1; cases e2
        exact reduceTerms_false hb t ht
      · exact ih h y hy

/-- C104. Whatever the coefficient type (so also for `f64`), the order and the build: if
`buchberger_algorithm` returns, no term of an element of the result is divisible by the leading term
of another element. -/
theorem C104_reduced (gens G : List (Poly F)) (h : Computer.buchbergerAlgorithm O gens = .ok G) :
    ∀ i j (hi : i < G.length) (hj : j < G.length), i ≠ j → ∀ t ∈ G[i],
      ∃ lt, Computer.leadingTerm O G[j] = .ok (some lt) ∧ lt.divides t = false := by
  unfold Computer.buchbergerAlgorithm at h
  rw [bind_eq_ok] at h
  obtain ⟨G₁, _, h⟩ := h
  rw [bind_eq_ok] at h
  obtain ⟨G₂, _, h⟩ := h
  refine loop_partial (step := Computer.reduceStep O) (fun _ => True)
    (fun G => ∀ i j (hi : i < G.length) (hj : j < G.length), i ≠ j → ∀ t ∈ G[i],
      ∃ lt, Computer.leadingTerm O G[j] = .ok (some lt) ∧ lt.divides t = false)
    (fun _ _ _ _ => trivial) ?_ trivial h
  intro G R _ hstep
  unfold Computer.reduceStep at hstep
  rw [bind_eq_ok] at hstep
  obtain ⟨o, ho, hstep⟩ := hstep
  rcases o with _ | i
  · cases hstep
    intro i j hi hj hij t ht
    exact reduceFor_none ho (i, j) (mem_pairsIter.mpr ⟨hi, hj, hij⟩) hi hj t ht
  · dsimp only at hstep
    rw [bind_eq_ok] at hstep
    obtain ⟨g, _, hstep⟩ := hstep
    rw [bind_eq_ok] at hstep
    obtain ⟨⟨r, qs⟩, _, hstep⟩ := hstep
    cases hstep

end

section
variable {F : Type} [RField F] {K : Type} [Field K] [LawfulRField F K]
variable {n : ℕ} {O : MOrder} {m : MonomialOrder (Fin n)}

/-- What the loops do when zero polynomials are allowed. -/
abbrev ZeroPanic (F : Type) [RField F] {K : Type} [Field K] [LawfulRField F K] (p : Panic) : Prop :=
  PolyPanic F p ∨ p = .unwrapNone

theorem extendFor_zero_spec (hO : Implements O m) {gens : List (Poly F)}
    (hg : ∀ g ∈ gens, Poly.Clean (Fin n) g) {i : ℕ} (hi : i < gens.length) (L : List ℕ)
    (hL : ∀ j ∈ L, j < gens.length) :
    Spec (ZeroPanic F) (Computer.extendFor O gens i L) (fun o => ∀ r, o = some r →
      Poly.Clean (Fin n) r ∧ r ≠ [] ∧
      ∀ p ∈ dens (Fin n) gens, p ≠ 0 → ¬ m.degree p ≤ m.degree (Poly.den (Fin n) r)) := by
  have hZ : ∀ p, PolyPanic F p → ZeroPanic F p := fun _ h => Or.inl h
  induction L with
  | nil => intro r hr; cases hr
  | cons j rest ih =>
    have hj := hL j (by simp)
    unfold Computer.extendFor
    refine (index_spec hi).bind ?_
    rintro gi rfl
    refine (index_spec hj).bind ?_
    rintro gj rfl
    have mi := List.getElem_mem hi
    have mj := List.getElem_mem hj
    refine ((C41_try_reduce hO _ _ (hg _ mi) (hg _ mj)).mono hZ fun _ h => h).bind ?_
    rintro (_ | s) hs
    · exact Or.inr rfl
    obtain ⟨hs, -, -⟩ := hs.2 s rfl
    refine ((divide_gens hO.poly polyPanic_allowed hg hs).mono hZ fun _ h => h).bind ?_
    rintro ⟨r, qs⟩ ⟨hr, hred, -, -⟩
    simp only at hr hred ⊢
    refine ((leadingCoef_spec hO.poly hr in_true).mono hZ fun _ h => h).bind ?_
    rintro (_ | lc) hlc
    · exact ih fun x hx => hL x (by simp [hx])
    · obtain ⟨hrne, hwf, hv, hlcv⟩ := hlc
      refine ((Poly.divCoef_spec hr hwf hv).mono (fun p hp => hZ p (polyPanic_allowed p hp))
        fun _ h => h).bind fun r' hr' => ?_
      have hden' : Poly.den (Fin n) r' = (val lc : K)⁻¹ • Poly.den (Fin n) r := by
        rw [smul_eq_C_mul]; exact hr'.2
      have hr0 : Poly.den (Fin n) r ≠ 0 := by rwa [Ne, Poly.den_eq_zero_iff hr]
      have hdeg : m.degree (Poly.den (Fin n) r') = m.degree (Poly.den (Fin n) r) := by
        rw [hden']
        exact m.degree_smul_of_mem_nonZeroDivisors (mem_nonZeroDivisors_of_ne_zero (inv_ne_zero hv))
      rintro _ ⟨⟩
      refine ⟨hr'.1, ?_, ?_⟩
      · rintro rfl
        rw [Poly.den_nil] at hden'
        exact smul_ne_zero (inv_ne_zero hv) hr0 hden'.symm
      · intro p hp hp0
        rw [hdeg]
        exact (hred _ (m.degree_mem_support hr0)).2 p hp hp0

/-- C103. For `Rational` and exact fields the call panics (it does not run forever): by unwrapping
`None`, or by an overflow before that. -/
theorem C103_panics (hO : Implements O m) (gens : List (Poly F))
    (hg : ∀ g ∈ gens, Poly.Clean (Fin n) g) (hl : 2 ≤ gens.length) (h0 : [] ∈ gens) :
    ∃ p, Computer.buchbergerAlgorithm O gens = .panic p ∧ (PolyPanic F p ∨ p = .unwrapNone) := by
  classical
  have : IsNoetherianRing K := inferInstance
  have : IsNoetherianRing (MvPolynomial (Fin n) K) := MvPolynomial.isNoetherianRing
  have hwf : WellFounded (Prod.Lex (fun I J : Ideal (MvPolynomial (Fin n) K) => J < I)
      ((· < ·) : ℕ → ℕ → Prop)) :=
    WellFounded.prod_lex (wellFounded_gt (α := Ideal (MvPolynomial (Fin n) K))) wellFounded_lt
  have key : Spec (ZeroPanic F) (Computer.buchbergerExtend O gens) (fun _ => True) := by
    unfold Computer.buchbergerExtend
    refine loop_spec _ hwf
      (fun s : List (Poly F) × ℕ => (∀ g ∈ s.1, Poly.Clean (Fin n) g))
      (fun s => (monIdeal K {d | ∃ g ∈ s.1, g ≠ [] ∧ d = m.degree (Poly.den (Fin n) g)},
        s.1.length - s.2)) _ ?_ _ hg
    rintro ⟨G, i⟩ hok
    simp only at hok
    unfold Computer.extendStep
    simp only
    split
    · rename_i hi
      refine (extendFor_zero_spec hO hok hi (List.range i) fun j hj => ?_).bind ?_
      · have := List.mem_range.mp hj; omega
      rintro (_ | r) ho
      · refine ⟨hok, Prod.Lex.right _ ?_⟩
        simp only
        omega
      · obtain ⟨hr, hrne, hrdeg⟩ := ho r rfl
        refine ⟨?_, Prod.Lex.left _ _ ?_⟩
        · intro g hg
          rcases List.mem_append.mp hg with h | h
          · exact hok g h
          · rw [List.mem_singleton.mp h]; exact hr
        · simp only
          have : {d | ∃ g ∈ G ++ [r], g ≠ [] ∧ d = m.degree (Poly.den (Fin n) g)} =
              insert (m.degree (Poly.den (Fin n) r))
                {d | ∃ g ∈ G, g ≠ [] ∧ d = m.degree (Poly.den (Fin n) g)} := by
            ext d
            simp only [List.mem_append, List.mem_singleton, Set.mem_ofPred_eq, Set.mem_insert_iff]
            constructor
            · rintro ⟨g, hg | rfl, h0, rfl⟩
              · exact Or.inr ⟨g, hg, h0, rfl⟩
              · exact Or.inl rfl
            · rintro (rfl | ⟨g, hg, h0, rfl⟩)
              · exact ⟨r, Or.inr rfl, hrne, rfl⟩
              · exact ⟨g, Or.inl hg, h0, rfl⟩
          rw [this]
          refine monIdeal_lt ?_
          rintro _ ⟨g, hg, hg0, rfl⟩
          exact hrdeg _ (mem_dens hg) (by rwa [Ne, Poly.den_eq_zero_iff (hok g hg)])
    · trivial
  unfold Computer.buchbergerAlgorithm
  rw [spec_iff] at key
  rcases hx : Computer.buchbergerExtend O gens with R | p | _
  · exact absurd rfl (extend_nonzero hx hl [] h0)
  · exact ⟨p, rfl, key.2.2 p hx⟩
  · exact absurd hx key.1

/-! ## C105 one variable: the greatest common divisor -/

/-- C105. In one variable the result is a single polynomial, a greatest common divisor of the
input. -/
theorem C105_gcd {m : MonomialOrder (Fin 1)} (hO : Implements O m) (gens : List (Poly F))
    (hg : ∀ g ∈ gens, Poly.Clean (Fin 1) g ∧ Poly.den (Fin 1) g ≠ 0) (hne : gens ≠ []) :
    Spec (PolyPanic F) (Computer.buchbergerAlgorithm O gens) (fun G => ∃ d, G = [d] ∧
      (∀ g ∈ gens, Poly.den (Fin 1) d ∣ (Poly.den (Fin 1) g : MvPolynomial (Fin 1) K)) ∧
      ∀ q : MvPolynomial (Fin 1) K, (∀ g ∈ gens, q ∣ Poly.den (Fin 1) g) → q ∣ Poly.den (Fin 1) d) := by
  refine (algorithm_spec hO gens hg (fun _ => True) trivial fun _ _ => trivial).imp fun G h => ?_
  obtain ⟨hok, hGr, -, hinc, -⟩ := h
  have htot : ∀ a b : Fin 1 →₀ ℕ, a ≤ b ∨ b ≤ a := by
    intro a b
    rcases le_total (a 0) (b 0) with h | h
    · exact Or.inl fun i => by rw [Subsingleton.elim i 0]; exact h
    · exact Or.inr fun i => by rw [Subsingleton.elim i 0]; exact h
  rcases G with _ | ⟨d, _ | ⟨d', G⟩⟩
  · exfalso
    rcases gens with _ | ⟨g, gens⟩
    · exact hne rfl
    obtain ⟨_, ⟨_, hmem, _⟩, _⟩ := hGr.2 _ (Ideal.subset_span (mem_dens (List.mem_cons_self ..)))
      (hg g (by simp)).2
    simp at hmem
  · refine ⟨d, rfl, ?_⟩
    have hspan : Ideal.span {(Poly.den (Fin 1) d : MvPolynomial (Fin 1) K)} =
        Ideal.span (dens (Fin 1) gens) := by
      rw [← hGr.span_eq]; congr 1; ext q; simp [dens]
    constructor
    · intro g hgm
      rw [← Ideal.mem_span_singleton, hspan]
      exact Ideal.subset_span (mem_dens hgm)
    · intro q hq
      have hle : Ideal.span (dens (Fin 1) gens) ≤ Ideal.span {q} := by
        rw [Ideal.span_le]
        rintro _ ⟨g, hgm, rfl⟩
        exact Ideal.mem_span_singleton.mpr (hq g hgm)
      rw [← hspan] at hle
      exact Ideal.mem_span_singleton.mp (hle (Ideal.mem_span_singleton_self _))
  · exfalso
    unfold LeadsIncomparable at hinc
    have := (List.pairwise_cons.mp hinc).1 d' (by simp)
    rcases htot (m.degree (Poly.den (Fin 1) d)) (m.degree (Poly.den (Fin 1) d')) with h | h
    · exact this.1 h
    · exact this.2 h

/-- The greatest common divisor of `x^2 - 1` and `x^2 - 3 x + 2` is `x - 1`. -/
example : letI := Rational.field .debug
    letI := Rational.lawful
    (∀ g ∈ [xSqSubOne, xSqSubThree], Poly.Clean (Fin 1) g ∧ Poly.den (Fin 1) g ≠ 0) ∧
    Computer.buchbergerAlgorithm (OrdKind.grLex.order .debug) [xSqSubOne, xSqSubThree] =
      .ok [xSubOne] := by
  let _ := Rational.field .debug
  exact ⟨sampleGens (by decide),
    (Computer.buchbergerAlgorithmN_approx 30 _).eq (by decide +kernel) (by simp)⟩

/-! ## C106 standard monomials and zero-dimensional ideals -/

/-- Monomials not divisible by a leading monomial of `G`. -/
def Standard (m : MonomialOrder (Fin n)) (G : List (Poly F)) : Set (Fin n →₀ ℕ) :=
  {e | ∀ g ∈ G, ¬ m.degree (Poly.den (Fin n) g) ≤ e}

theorem standard_independent {I : Ideal (MvPolynomial (Fin n) K)} {G : List (Poly F)}
    (hGr : IsGroebner m I (dens (Fin n) G)) {r : MvPolynomial (Fin n) K} (hr : r ∈ I)
    (hs : ∀ e ∈ r.support, e ∈ Standard m G) : r = 0 :=
  hGr.eq_zero hr fun e he _ ⟨g, hg, hp⟩ _ => by rw [hp]; exact hs e he g hg

/-- Reduction to standard monomials, in mathematics. -/
theorem exists_standard {I : Ideal (MvPolynomial (Fin n) K)} {G : List (Poly F)}
    (hok : GenOk (Fin n) G) (hGr : IsGroebner m I (dens (Fin n) G)) (f : MvPolynomial (Fin n) K) :
    ∃ r : MvPolynomial (Fin n) K, f - r ∈ I ∧ ∀ e ∈ r.support, e ∈ Standard m G := by
  classical
  generalize hd : wdeg m f = d
  induction d using (wdeg_wf m).induction generalizing f with
  | _ d ih =>
    by_cases hf0 : f = 0
    · exact ⟨0, by rw [hf0, sub_zero]; exact I.zero_mem, by simp⟩
    by_cases hst : m.degree f ∈ Standard m G
    · obtain ⟨r, hr, hrs⟩ := ih (wdeg m (f - m.leadingTerm f)) (by
        rw [← hd]
        refine wdeg_lt m hf0 fun hne => degree_sub_lt m ?_ ?_ hne
        · exact (m.degree_leadingTerm f).symm
        · exact (m.leadingCoeff_leadingTerm f).symm) (f - m.leadingTerm f) rfl
      refine ⟨r + m.leadingTerm f, by rwa [sub_add_eq_sub_sub_swap], fun e he => ?_⟩
      rcases Finset.mem_union.mp (support_add he) with h | h
      · exact hrs e h
      · have : e = m.degree f := by simpa using support_monomial_subset h
        rw [this]; exact hst
    · have : ∃ g ∈ G, m.degree (Poly.den (Fin n) g) ≤ m.degree f := by
        by_contra hno
        push Not at hno
        exact hst hno
      obtain ⟨g, hg, hle⟩ := this
      have hg0 := hok.den_ne hg
      set g' : MvPolynomial (Fin n) K := Poly.den (Fin n) g
      set a : MvPolynomial (Fin n) K := monomial (m.degree f - m.degree g')
        (m.leadingCoeff f * (m.leadingCoeff g')⁻¹) with ha
      have hc : m.leadingCoeff f * (m.leadingCoeff g')⁻¹ ≠ 0 :=
        mul_ne_zero (m.leadingCoeff_ne_zero_iff.mpr hf0)
          (inv_ne_zero (m.leadingCoeff_ne_zero_iff.mpr hg0))
      obtain ⟨h1, h2⟩ := den_mul_monomial (m := m) hg0 (e := m.degree f - m.degree g') hc
      obtain ⟨r, hr, hrs⟩ := ih (wdeg m (f - g' * a)) (by
        rw [← hd]
        refine wdeg_lt m hf0 fun hne => degree_sub_lt m ?_ ?_ hne
        · rw [h1, add_tsub_cancel_of_le hle]
        · rw [h2, mul_comm, mul_assoc, inv_mul_cancel₀ (m.leadingCoeff_ne_zero_iff.mpr hg0),
            mul_one]) (f - g' * a) rfl
      refine ⟨r, ?_, hrs⟩
      have := I.add_mem hr (I.mul_mem_right a (hGr.1 (mem_dens hg)))
      have he : f - g' * a - r + Poly.den (Fin n) g * a = f - r := by ring
      rwa [he] at this

theorem mk_monomial (I : Ideal (MvPolynomial (Fin n) K)) (e : Fin n →₀ ℕ) (c : K) :
    Ideal.Quotient.mk I (monomial e c) = c • Ideal.Quotient.mk I (monomial e 1) := by
  have : (monomial e c : MvPolynomial (Fin n) K) = c • monomial e 1 := by
    rw [smul_monomial, smul_eq_mul, mul_one]
  rw [this]
  exact map_smul (Ideal.Quotient.mkₐ K I) c _

theorem macaulay {I : Ideal (MvPolynomial (Fin n) K)} {G : List (Poly F)}
    (hok : GenOk (Fin n) G) (hGr : IsGroebner m I (dens (Fin n) G)) :
    LinearIndependent K (fun e : Standard m G => Ideal.Quotient.mk I (monomial e.1 (1 : K))) ∧
    Submodule.span K (Set.range fun e : Standard m G => Ideal.Quotient.mk I
      (monomial e.1 (1 : K))) = ⊤ := by
  classical
  constructor
  · rw [linearIndependent_iff']
    intro s c hsum e he
    have h0 : (∑ e ∈ s, monomial e.1 (c e) : MvPolynomial (Fin n) K) = 0 := by
      refine standard_independent hGr ?_ ?_
      · rw [← Ideal.Quotient.eq_zero_iff_mem, map_sum, ← hsum]
        exact Finset.sum_congr rfl fun e _ => mk_monomial I e.1 (c e)
      · intro e he
        obtain ⟨e', _, he'⟩ := Finset.mem_biUnion.mp (support_sum he)
        have : e = e'.1 := by simpa using support_monomial_subset he'
        rw [this]; exact e'.2
    have := congrArg (coeff e.1) h0
    rw [coeff_sum, coeff_zero, Finset.sum_eq_single e] at this
    · simpa using this
    · intro b _ hb
      rw [coeff_monomial, if_neg fun h => hb (Subtype.ext h)]
    · exact fun h => absurd he h
  · rw [eq_top_iff]
    rintro x -
    obtain ⟨f, rfl⟩ := Ideal.Quotient.mk_surjective x
    obtain ⟨r, hr, hrs⟩ := exists_standard hok hGr f
    rw [← Ideal.Quotient.eq] at hr
    rw [hr, r.as_sum, map_sum]
    refine Submodule.sum_mem _ fun e he => ?_
    rw [mk_monomial]
    exact Submodule.smul_mem _ _ (Submodule.subset_span ⟨⟨e, hrs e he⟩, rfl⟩)

/-- C106 (Macaulay). The standard monomials of the result are a basis of the quotient ring: linearly
independent and spanning. -/
theorem C106_macaulay (hO : Implements O m) (gens : List (Poly F))
    (hg : ∀ g ∈ gens, Poly.Clean (Fin n) g ∧ Poly.den (Fin n) g ≠ 0) :
    Spec (PolyPanic F) (Computer.buchbergerAlgorithm O gens) (fun G =>
      LinearIndependent K (fun e : Standard m G => Ideal.Quotient.mk
        (Ideal.span (dens (Fin n) gens)) (monomial e.1 (1 : K))) ∧
      Submodule.span K (Set.range fun e : Standard m G => Ideal.Quotient.mk
        (Ideal.span (dens (Fin n) gens)) (monomial e.1 (1 : K))) = ⊤) :=
  (algorithm_spec hO gens hg (fun _ => True) trivial fun _ _ => trivial).imp fun _ h =>
    macaulay h.1 h.2.1

/-- C106. The quotient ring is finite-dimensional exactly when for every variable some element of the
result has a power of it as leading monomial. -/
theorem C106_finite (hO : Implements O m) (gens : List (Poly F))
    (hg : ∀ g ∈ gens, Poly.Clean (Fin n) g ∧ Poly.den (Fin n) g ≠ 0) :
    Spec (PolyPanic F) (Computer.buchbergerAlgorithm O gens) (fun G =>
      Module.Finite K (MvPolynomial (Fin n) K ⧸ Ideal.span (dens (Fin n) gens)) ↔
        ∀ i : Fin n, ∃ g ∈ G, ∃ d : ℕ, m.degree (Poly.den (Fin n) g : MvPolynomial (Fin n) K) =
          Finsupp.single i d) := by
  classical
  refine (algorithm_spec hO gens hg (fun _ => True) trivial fun _ _ => trivial).imp fun G h => ?_
  obtain ⟨hli, hspan⟩ := macaulay h.1 h.2.1
  constructor
  · intro hfin i
    by_contra hno
    push Not at hno
    have hst : ∀ d : ℕ, Finsupp.single i d ∈ Standard m G := by
      intro d g hgm hle
      refine hno g hgm (m.degree (Poly.den (Fin n) g) i) (Finsupp.ext fun j => ?_)
      by_cases hj : j = i
      · rw [hj, Finsupp.single_eq_same]
      · have := hle j
        rw [Finsupp.single_eq_of_ne hj] at this
        rw [Finsupp.single_eq_of_ne hj]
        omega
    have : Finite (Standard m G) := hli.finite
    refine not_injective_infinite_finite (fun d : ℕ => (⟨_, hst d⟩ : Standard m G)) ?_
    intro a b hab
    have := congrArg (fun x : Standard m G => x.1 i) hab
    simpa using this
  · intro hall
    choose g hgm d hd using hall
    have hsub : Standard m G ⊆ Set.Icc 0 (Finsupp.equivFunOnFinite.symm d) := by
      refine fun e he => ⟨zero_le, fun i => ?_⟩
      have := he (g i) (hgm i)
      rw [hd i] at this
      by_contra hlt
      refine this fun j => ?_
      by_cases hj : j = i
      · rw [hj, Finsupp.single_eq_same]
        exact (not_le.mp hlt).le
      · rw [Finsupp.single_eq_of_ne hj]; exact Nat.zero_le _
    have : Finite (Standard m G) := (Set.finite_Icc _ _).subset hsub
    exact ⟨Submodule.fg_def.mpr ⟨_, Set.finite_range _, hspan⟩⟩

/-! ## C107 membership, end to end -/

/-- C107. The whole pipeline decides membership in the ideal generated by the input. -/
theorem C107_membership (hO : Implements O m) (gens : List (Poly F))
    (hg : ∀ g ∈ gens, Poly.Clean (Fin n) g ∧ Poly.den (Fin n) g ≠ 0) (f : Poly F)
    (hf : Poly.Clean (Fin n) f) :
    Spec (PolyPanic F) (do
      let G ← Computer.buchbergerAlgorithm O gens
      let (r, _) ← Computer.divide O f G
      pure r.isZero) (fun b => b = true ↔
        Poly.den (Fin n) f ∈ Ideal.span (dens (Fin n) gens)) := by
  refine (algorithm_spec hO gens hg (fun _ => True) trivial fun _ _ => trivial).bind fun G h => ?_
  have hG : GroebnerList m G := by
    refine ⟨fun g hg => (h.1 g hg).1, fun f hf hf0 => ?_⟩
    rw [h.2.1.span_eq] at hf
    obtain ⟨_, ⟨g, hgm, rfl⟩, h0, hle⟩ := h.2.1.2 f hf hf0
    exact ⟨g, hgm, h0, hle⟩
  refine (C48_membership hO f G hf hG).bind ?_
  rintro ⟨r, qs⟩ hr
  simp only at hr
  rw [h.2.1.span_eq] at hr
  exact hr

/-- `x - y` is in the ideal of `x y - 1, y^2 - 1`, `x + y` is not. -/
example : letI := Rational.field .debug
    Computer.divide (OrdKind.lex.order .debug) ([⟨⟨1, 1⟩, [1]⟩, ⟨⟨-1, 1⟩, [0, 1]⟩] : Poly Rational)
      [[⟨⟨1, 1⟩, [0, 2]⟩, ⟨⟨-1, 1⟩, []⟩], [⟨⟨1, 1⟩, [1]⟩, ⟨⟨-1, 1⟩, [0, 1]⟩]] =
        .ok ([], [[], [⟨⟨1, 1⟩, []⟩]]) ∧
    Computer.divide (OrdKind.lex.order .debug) ([⟨⟨1, 1⟩, [1]⟩, ⟨⟨1, 1⟩, [0, 1]⟩] : Poly Rational)
      [[⟨⟨1, 1⟩, [0, 2]⟩, ⟨⟨-1, 1⟩, []⟩], [⟨⟨1, 1⟩, [1]⟩, ⟨⟨-1, 1⟩, [0, 1]⟩]] =
        .ok ([⟨⟨2, 1⟩, [0, 1]⟩], [[], [⟨⟨1, 1⟩, []⟩]]) := by
  let _ := Rational.field .debug
  exact ⟨(Computer.divideN_approx 30 _ _).eq (by decide +kernel) (by simp),
    (Computer.divideN_approx 30 _ _).eq (by decide +kernel) (by simp)⟩

end
end Verif
