import Verif.Props.IntDivide
import Verif.Props.Graded

/-!
# C190: how many terms a division can produce
-/

namespace Verif
open Res LawfulRField Computer MvPolynomial MOrder

variable {F K : Type} [RField F] [Field K] [LawfulRField F K] {n : ℕ} {O : MOrder}
  {m : MonomialOrder (Fin n)}

/-- The monomials of the remainder, and the products of the monomials of every quotient and the leading
monomial of its divisor. -/
noncomputable def divisionMonomials (m : MonomialOrder (Fin n)) (divs : List (Poly F)) (r : Poly F)
    (qs : List (Poly F)) : List (Fin n →₀ ℕ) :=
  r.map (fun t => t.mdeg.toF (Fin n)) ++ (divs.zip qs).flatMap fun gq =>
    gq.2.map fun t => t.mdeg.toF (Fin n) + m.degree (Poly.den (Fin n) gq.1)

theorem Poly.Clean.nodup_toF {p : Poly F} (hp : Poly.Clean (Fin n) p) :
    (p.map fun t => t.mdeg.toF (Fin n)).Nodup := by
  have := hp.nodup
  rw [List.Nodup, List.pairwise_map] at this ⊢
  refine this.imp_of_mem fun hs ht hne he => hne ?_
  exact MDeg.toF_inj (hp.terms _ hs).mdeg (hp.terms _ ht).mdeg (hp.terms _ hs).vars (hp.terms _ ht).vars he

/-- C190. No two steps of a division treat the same monomial: the monomials of the remainder and the
products of the monomials of the quotients and the leading monomials of their divisors are pairwise
different, and none exceeds the leading monomial of the dividend. -/
theorem C190_distinct (hO : Implements O m) (f : Poly F) (divs : List (Poly F))
    (hf : Poly.Clean (Fin n) f) (hd : ∀ g ∈ divs, Poly.Clean (Fin n) g) :
    Spec (PolyPanic F) (divide O f divs) (fun x =>
      (divisionMonomials m divs x.1 x.2).Nodup ∧
      (divisionMonomials m divs x.1 x.2).length = x.1.length + (x.2.map List.length).sum ∧
      ∀ e ∈ divisionMonomials m divs x.1 x.2, m.toSyn e ≤ m.toSyn (m.degree (Poly.den (Fin n) f))) := by
  refine (((C36_divide_identity hO f divs hf hd).and (C120_determinate hO f divs hf hd)).and
    (C38_degree_bound hO f divs hf hd)).imp ?_
  rintro ⟨r, qs⟩ ⟨⟨⟨hr, hl, hq, -⟩, -, hdiv⟩, hb1, hb2⟩
  dsimp only at *
  have hget : ∀ (i : ℕ) (hi : i < divs.length) (t : Term F), t ∈ qs[i]'(by omega) →
      t.mdeg.toF (Fin n) ∈ (Poly.den (Fin n) (qs.getD i [])).support := by
    intro i hi t ht
    rw [List.getD_eq_getElem _ _ (by omega : i < qs.length)]
    exact (Poly.mem_support_den (hq _ (List.getElem_mem _))).mpr ⟨t, ht, rfl⟩
  unfold divisionMonomials
  refine ⟨List.nodup_append.mpr ⟨hr.nodup_toF, List.nodup_flatMap.mpr ⟨?_, ?_⟩, ?_⟩, ?_, ?_⟩
  · rintro ⟨g, q⟩ hgq
    have := (hq q (List.of_mem_zip hgq).2).nodup_toF
    rw [List.Nodup, List.pairwise_map] at this ⊢
    exact this.imp fun hne he => hne (add_right_cancel he)
  · rw [List.pairwise_iff_getElem]
    intro i j hi hj hij e h1 h2
    rw [List.length_zip] at hi hj
    rw [List.getElem_zip] at h1 h2
    obtain ⟨s, hs, rfl⟩ := List.mem_map.mp h1
    obtain ⟨t, ht, he⟩ := List.mem_map.mp h2
    have hi' : i < divs.length := by omega
    have hj' : j < divs.length := by omega
    have hsi := hdiv.quotient ⟨i, hi'⟩ _ (hget i hi' s hs)
    have htj := hdiv.quotient ⟨j, hj'⟩ _ (hget j hj' t ht)
    refine htj.2 ⟨i, hi'⟩ hij hsi.1 ?_
    have he : t.mdeg.toF (Fin n) + m.degree (Poly.den (Fin n) divs[j]) =
      s.mdeg.toF (Fin n) + m.degree (Poly.den (Fin n) divs[i]) := he
    change m.degree (Poly.den (Fin n) divs[i]) ≤
      t.mdeg.toF (Fin n) + m.degree (Poly.den (Fin n) divs[j])
    rw [he]
    exact le_add_self
  · rintro a ha b hb rfl
    obtain ⟨s, hs, rfl⟩ := List.mem_map.mp ha
    obtain ⟨gq, hgq, hb⟩ := List.mem_flatMap.mp hb
    obtain ⟨t, ht, he⟩ := List.mem_map.mp hb
    obtain ⟨i, hi, rfl⟩ := List.getElem_of_mem hgq
    rw [List.length_zip] at hi
    rw [List.getElem_zip] at he ht
    have hi' : i < divs.length := by omega
    have hti := hdiv.quotient ⟨i, hi'⟩ _ (hget i hi' t ht)
    refine hdiv.remainder _ ((Poly.mem_support_den hr).mpr ⟨s, hs, rfl⟩) ⟨i, hi'⟩ hti.1 ?_
    change m.degree (Poly.den (Fin n) divs[i]) ≤ _
    rw [← he]
    exact le_add_self
  · rw [List.length_append, List.length_map, List.length_flatMap]
    congr 2
    have : (divs.zip qs).map (fun gq => (gq.2.map fun t : Term F =>
        t.mdeg.toF (Fin n) + m.degree (Poly.den (Fin n) gq.1)).length) =
        ((divs.zip qs).map Prod.snd).map List.length := by
      rw [List.map_map]
      exact List.map_congr_left fun x _ => by rw [List.length_map]; rfl
    rw [this, List.map_snd_zip (by omega)]
  · intro e he
    rcases List.mem_append.mp he with he | he
    · obtain ⟨s, hs, rfl⟩ := List.mem_map.mp he
      exact (m.le_degree ((Poly.mem_support_den hr).mpr ⟨s, hs, rfl⟩)).trans hb2
    · obtain ⟨gq, hgq, hb⟩ := List.mem_flatMap.mp he
      obtain ⟨t, ht, rfl⟩ := List.mem_map.mp hb
      obtain ⟨i, hi, rfl⟩ := List.getElem_of_mem hgq
      rw [List.length_zip] at hi
      rw [List.getElem_zip] at ht ⊢
      have hi' : i < divs.length := by omega
      have hsup := hget i hi' t ht
      have hti := hdiv.quotient ⟨i, hi'⟩ _ hsup
      rw [List.getD_eq_getElem _ _ (by omega : i < qs.length)] at hsup
      have hz := hb1 (qs[i], divs[i]) (by
        rw [List.mem_iff_getElem]
        exact ⟨i, by rw [List.length_zip]; omega, List.getElem_zip⟩)
      dsimp only at hz ht ⊢
      have hqne : Poly.den (Fin n) qs[i] ≠ 0 := by
        intro h0; rw [h0] at hsup; simp at hsup
      have hgne : Poly.den (Fin n) divs[i] ≠ 0 := hti.1
      rw [m.degree_mul hqne hgne, map_add] at hz
      rw [map_add]
      exact (add_le_add_left (m.le_degree hsup) _).trans hz

/-- C190. With a graded order, or in one variable, a division of a polynomial of total degree at most `d` in
`n` variables produces at most `n + d choose n` terms, in the remainder and all quotients together,
however many divisors there are. -/
theorem C190_count (k : OrdKind) (hk : k.graded = true ∨ n = 1) (d : ℕ) (f : Poly F) (divs : List (Poly F))
    (hf : Poly.Clean (Fin n) f) (hd : ∀ g ∈ divs, Poly.Clean (Fin n) g)
    (hfd : ∀ t ∈ f, t.mdeg.sum ≤ d) :
    Spec (PolyPanic F) (divide (k.order .debug) f divs) (fun x =>
      x.1.length + (x.2.map List.length).sum ≤ (n + d).choose n) := by
  classical
  refine (C190_distinct (k.implements n) f divs hf hd).imp ?_
  rintro ⟨r, qs⟩ ⟨h1, h2, h3⟩
  dsimp only at *
  rw [← h2, ← List.toFinset_card_of_nodup h1]
  refine (Finset.card_le_card fun e he => ?_).trans (card_monomialsUpTo n d)
  have hle := h3 e (List.mem_toFinset.mp he)
  apply mem_monomialsUpTo
  have hf0 : ∑ s, ((k.mathlib n).degree (Poly.den (Fin n) f)) s ≤ d := by
    by_cases h0 : Poly.den (Fin n) f = 0
    · rw [h0, MonomialOrder.degree_zero]; simp
    · obtain ⟨t, ht, he⟩ := (Poly.mem_support_den hf).mp ((k.mathlib n).degree_mem_support h0)
      rw [← he]
      have hl := (MDeg.inVars_fin (hf.terms t ht).mdeg).mp (hf.terms t ht).vars
      rw [← tot_extend, extend_toF hl, ← sum_eq_tot hl]
      exact hfd t ht
  refine le_trans ?_ hf0
  rcases hk with hk | rfl
  · have := OrdKind.degree_mono hk hle
    rwa [Finsupp.degree_eq_sum, Finsupp.degree_eq_sum] at this
  · rw [Fin.sum_univ_one, Fin.sum_univ_one]
    by_contra hlt
    push Not at hlt
    refine absurd hle (not_le.mpr ?_)
    refine (k.mathlib 1).toSyn_strictMono (lt_of_le_of_ne (fun i => ?_) fun h => ?_)
    · rw [Subsingleton.elim i 0]; exact hlt.le
    · rw [h] at hlt; exact lt_irrefl _ hlt

/-- C190. The bound is attained: `x³` divided by `x + 1` meets the hypotheses, and `1 + 3 choose 1 = 4`. -/
theorem C190_attained : letI := Rational.field .debug
    letI := Rational.lawful
    Poly.Clean (Fin 1) ([⟨⟨1, 1⟩, [3]⟩] : Poly Rational) ∧
    (∀ g ∈ [([⟨⟨1, 1⟩, [1]⟩, ⟨⟨1, 1⟩, []⟩] : Poly Rational)], Poly.Clean (Fin 1) g) ∧
    (∀ t ∈ ([⟨⟨1, 1⟩, [3]⟩] : Poly Rational), t.mdeg.sum ≤ 3) ∧
    divide (F := Rational) (OrdKind.lex.order .debug) [⟨⟨1, 1⟩, [3]⟩] [[⟨⟨1, 1⟩, [1]⟩, ⟨⟨1, 1⟩, []⟩]] =
      .ok ([⟨⟨-1, 1⟩, []⟩], [[⟨⟨1, 1⟩, [2]⟩, ⟨⟨-1, 1⟩, [1]⟩, ⟨⟨1, 1⟩, []⟩]]) ∧
    (1 + 3).choose 1 = 4 := by
  let _ := Rational.field .debug
  let _ := Rational.lawful
  have hc := sampleGens (k := 1)
    (gens := [[⟨⟨1, 1⟩, [3]⟩], [⟨⟨1, 1⟩, [1]⟩, ⟨⟨1, 1⟩, []⟩]]) (by decide)
  refine ⟨(hc _ (by simp)).1, fun g hg => (hc g ?_).1, by decide,
    (divideN_approx 20 _ _).eq (by decide +kernel) (by simp), by decide⟩
  rw [List.mem_singleton.mp hg]; simp

/-- C190. Without a graded order there may be more terms: `x` divided by `x − y² − y³ − y⁴` in the
lexicographic order gives four, and `2 + 1 choose 2 = 3`. -/
theorem C190_lex : letI := Rational.field .debug
    divide (F := Rational) (OrdKind.lex.order .debug) [⟨⟨1, 1⟩, [1]⟩]
        [[⟨⟨1, 1⟩, [1]⟩, ⟨⟨-1, 1⟩, [0, 2]⟩, ⟨⟨-1, 1⟩, [0, 3]⟩, ⟨⟨-1, 1⟩, [0, 4]⟩]] =
      .ok ([⟨⟨1, 1⟩, [0, 4]⟩, ⟨⟨1, 1⟩, [0, 3]⟩, ⟨⟨1, 1⟩, [0, 2]⟩], [[⟨⟨1, 1⟩, []⟩]]) ∧
    (2 + 1).choose 2 = 3 := by
  let _ := Rational.field .debug
  exact ⟨(divideN_approx 20 _ _).eq (by decide +kernel) (by simp), by decide⟩

end Verif
