import Verif.Props.TermOrder

/-!
# Properties C124–C125: which basis `buchberger_algorithm` returns, and in which order

Conventions as in `Props/Comp.lean`.
-/

namespace Verif
open Res MvPolynomial LawfulRField

section
variable {F : Type} [RField F] {K : Type} [Field K] [LawfulRField F K]
variable {n : ℕ} {O : MOrder} {m : MonomialOrder (Fin n)}

/-! ## C124 which elements are kept -/

/-- The exponent of the leading monomial of the `k`-th polynomial. -/
noncomputable def lead (m : MonomialOrder (Fin n)) (gens : List (Poly F)) (k : ℕ) : Fin n →₀ ℕ :=
  m.degree (Poly.den (Fin n) (gens.getD k []))

/-- The `j`-th polynomial makes the `k`-th superfluous: its leading monomial divides that of the
`k`-th, and if they are equal it comes later. -/
def Beats (m : MonomialOrder (Fin n)) (gens : List (Poly F)) (j k : ℕ) : Prop :=
  j < gens.length ∧ lead m gens j ≤ lead m gens k ∧ (lead m gens j = lead m gens k → k < j)

open Classical in
/-- The polynomials that no other one makes superfluous, in their order. -/
noncomputable def minimalOnes (m : MonomialOrder (Fin n)) (gens : List (Poly F)) : List (Poly F) :=
  ((List.range gens.length).filter fun k => ∀ j, ¬ Beats m gens j k).map fun k => gens.getD k []

theorem Beats.trans {gens : List (Poly F)} {i j k : ℕ} (h₁ : Beats m gens i j)
    (h₂ : Beats m gens j k) : Beats m gens i k := by
  refine ⟨h₁.1, h₁.2.1.trans h₂.2.1, fun h => ?_⟩
  have e : lead m gens j = lead m gens k := le_antisymm h₂.2.1 (by rw [← h]; exact h₁.2.1)
  have := h₁.2.2 (h.trans e.symm)
  have := h₂.2.2 e
  omega

/-- The pairs come in lexicographic order. -/
theorem pairsIter_sorted (n : ℕ) : (Computer.pairsIter n).Pairwise fun x y =>
    x.1 < y.1 ∨ (x.1 = y.1 ∧ x.2 < y.2) := by
  unfold Computer.pairsIter
  refine List.Pairwise.filter _ ?_
  rw [List.pairwise_flatMap]
  refine ⟨fun i _ => ?_, ?_⟩
  · rw [List.pairwise_map]
    exact List.pairwise_lt_range.imp fun h => .inr ⟨rfl, h⟩
  · refine List.pairwise_lt_range.imp fun {i j} h x hx y hy => .inl ?_
    obtain ⟨_, _, rfl⟩ := List.mem_map.mp hx
    obtain ⟨_, _, rfl⟩ := List.mem_map.mp hy
    exact h

theorem pairsIter_before {N i j : ℕ} {pre suf : List (ℕ × ℕ)}
    (h : Computer.pairsIter N = pre ++ (i, j) :: suf) {x : ℕ × ℕ} (hx : x ∈ Computer.pairsIter N)
    (hlt : x.1 < i ∨ (x.1 = i ∧ x.2 < j)) : x ∈ pre := by
  have hs := pairsIter_sorted N
  rw [h] at hs hx
  rcases List.mem_append.mp hx with hx | hx
  · exact hx
  · exfalso
    have hs := (List.pairwise_cons.mp (List.pairwise_append.mp hs).2.1).1
    rcases List.mem_cons.mp hx with rfl | hx
    · simp at hlt
    · have := hs x hx
      simp only at this
      omega

theorem lead_getElem {gens : List (Poly F)} {k : ℕ} (hk : k < gens.length) :
    lead m gens k = m.degree (Poly.den (Fin n) gens[k]) := by
  unfold lead
  simp [List.getD, hk]

/-- `minimizeFor` stops at the first pair. -/
theorem minimizeFor_first (hO : Implements O m) {gens : List (Poly F)} (hg : GenOk (Fin n) gens)
    (L : List (ℕ × ℕ)) (hL : ∀ x ∈ L, x ∈ Computer.pairsIter gens.length) :
    Spec (PolyPanic F) (Computer.minimizeFor O gens L) (fun o => match o with
      | none => ∀ x ∈ L, ¬ lead m gens x.2 ≤ lead m gens x.1
      | some i => ∃ pre j suf, L = pre ++ (i, j) :: suf ∧ lead m gens j ≤ lead m gens i ∧
          ∀ x ∈ pre, ¬ lead m gens x.2 ≤ lead m gens x.1) := by
  induction L with
  | nil => intro x hx; simp at hx
  | cons x rest ih =>
    obtain ⟨i, j⟩ := x
    obtain ⟨hi, hj, hij⟩ := mem_pairsIter.mp (hL (i, j) (by simp))
    unfold Computer.minimizeFor
    refine (index_spec hj).bind ?_
    rintro gj rfl
    have mi := List.getElem_mem hi
    have mj := List.getElem_mem hj
    refine (unwrapLeadingTerm_spec (hO.poly (F := F)) (hg _ mj).1 (hg _ mj).2).bind fun ltJ hJ => ?_
    refine (index_spec hi).bind ?_
    rintro gi rfl
    refine (unwrapLeadingTerm_spec (hO.poly (F := F)) (hg _ mi).1 (hg _ mi).2).bind fun ltI hI => ?_
    have hdiv := Term.divides_iff hJ.1 (t := ltI)
    rw [hJ.2, hI.2, ← lead_getElem hi, ← lead_getElem hj] at hdiv
    split
    · rename_i hd
      exact ⟨[], j, rest, rfl, hdiv.mp hd, by simp⟩
    · rename_i hd
      refine (ih fun x hx => hL x (by simp [hx])).imp ?_
      rintro (_ | k) h
      · intro x hx
        rcases List.mem_cons.mp hx with rfl | hx
        · exact fun hle => hd (hdiv.mpr hle)
        · exact h x hx
      · obtain ⟨pre, j', suf, h1, h2, h3⟩ := h
        refine ⟨(i, j) :: pre, j', suf, by rw [h1]; rfl, h2, fun x hx => ?_⟩
        rcases List.mem_cons.mp hx with rfl | hx
        · exact fun hle => hd (hdiv.mpr hle)
        · exact h3 x hx

/-- C124. `buchberger_minimize` keeps exactly the polynomials that no other one makes superfluous,
unchanged and in their order; of several with the same leading monomial it keeps the last. -/
theorem C124_minimize (hO : Implements O m) (gens : List (Poly F))
    (hg : ∀ g ∈ gens, Poly.Clean (Fin n) g ∧ Poly.den (Fin n) g ≠ 0) (G : List (Poly F))
    (h : Computer.buchbergerMinimize O gens = .ok G) : G = minimalOnes m gens := by
  classical
  have hok : GenOk (Fin n) gens := fun g h => ⟨(hg g h).1, fun h0 => (hg g h).2 (by rw [h0]; rfl)⟩
  have hsel : ∀ ks : List ℕ, (∀ k ∈ ks, k < gens.length) →
      GenOk (Fin n) (ks.map fun k => gens.getD k []) := by
    intro ks hks g hgm
    obtain ⟨k, hk, rfl⟩ := List.mem_map.mp hgm
    have := hks k hk
    simp only [List.getD, this, List.getElem?_eq_getElem, Option.getD_some]
    exact hok _ (List.getElem_mem this)
  have hlead : ∀ (ks : List ℕ) (i : ℕ) (hi : i < ks.length),
      lead m (ks.map fun k => gens.getD k []) i = lead m gens ks[i] := by
    intro ks i hi
    simp [lead, List.getD, hi]
  refine loop_partial (step := Computer.minimizeStep O)
    (fun H => ∃ ks : List ℕ, ks.Pairwise (· < ·) ∧ (∀ k ∈ ks, k < gens.length) ∧
      H = ks.map (fun k => gens.getD k []) ∧
      ∀ k < gens.length, k ∉ ks → ∃ j ∈ ks, Beats m gens j k)
    (fun H => H = minimalOnes m gens) ?_ ?_ ?_ h
  · rintro H H' ⟨ks, hs, hlt, rfl, hb⟩ hstep
    unfold Computer.minimizeStep at hstep
    rw [bind_eq_ok] at hstep
    obtain ⟨o, ho, hstep⟩ := hstep
    have hf := (minimizeFor_first hO (hsel ks hlt) _ fun x hx => hx).of_ok ho
    rcases o with _ | i
    · cases hstep
    cases hstep
    obtain ⟨pre, j, suf, h1, h2, h3⟩ := hf
    have hmem : (i, j) ∈ Computer.pairsIter (ks.map fun k => gens.getD k []).length := by
      rw [h1]; simp
    obtain ⟨hi, hj, hij⟩ := mem_pairsIter.mp hmem
    rw [List.length_map] at hi hj
    rw [hlead ks i hi, hlead ks j hj] at h2
    have hsl := List.pairwise_iff_getElem.mp hs
    have hbeat : Beats m gens ks[j] ks[i] := by
      refine ⟨hlt _ (List.getElem_mem hj), h2, fun he => ?_⟩
      refine hsl i j hi hj ?_
      by_contra hcon
      have hmem' : (j, i) ∈ Computer.pairsIter (ks.map fun k => gens.getD k []).length := by
        rw [mem_pairsIter, List.length_map]; exact ⟨hj, hi, hij.symm⟩
      refine h3 (j, i) (pairsIter_before h1 hmem' (.inl (by simp only; omega))) ?_
      simp only
      rw [hlead ks i hi, hlead ks j hj, he]
    have hne : ks[j] ≠ ks[i] := by
      intro he
      have := hbeat.2.2 (by rw [he])
      omega
    refine ⟨ks.eraseIdx i, hs.sublist (List.eraseIdx_sublist _ _),
      fun k hk => hlt k (List.mem_of_mem_eraseIdx hk), List.eraseIdx_map .., fun k hk hkn => ?_⟩
    have hjm : ks[j] ∈ ks.eraseIdx i :=
      List.mem_eraseIdx_iff_getElem.mpr ⟨j, hj, hij.symm, rfl⟩
    have hks : ∀ x ∈ ks, x ∈ ks.eraseIdx i ∨ x = ks[i] := by
      intro x hx
      obtain ⟨a, ha, rfl⟩ := List.getElem_of_mem hx
      by_cases hai : a = i
      · right; subst hai; rfl
      · left; exact List.mem_eraseIdx_iff_getElem.mpr ⟨a, ha, hai, rfl⟩
    by_cases hkk : k ∈ ks
    · rcases hks k hkk with h | h
      · exact absurd h hkn
      · exact ⟨ks[j], hjm, by rw [h]; exact hbeat⟩
    · obtain ⟨a, ha, hab⟩ := hb k hk hkk
      rcases hks a ha with h | h
      · exact ⟨a, h, hab⟩
      · rw [h] at hab
        exact ⟨ks[j], hjm, hbeat.trans hab⟩
  · rintro H R ⟨ks, hs, hlt, rfl, hb⟩ hstep
    unfold Computer.minimizeStep at hstep
    rw [bind_eq_ok] at hstep
    obtain ⟨o, ho, hstep⟩ := hstep
    have hf := (minimizeFor_first hO (hsel ks hlt) _ fun x hx => hx).of_ok ho
    rcases o with _ | i
    · cases hstep
      unfold minimalOnes
      congr 1
      have hno : ∀ a ∈ ks, ∀ b ∈ ks, ¬ Beats m gens a b := by
        intro a ha b hb hab
        obtain ⟨i, hi, rfl⟩ := List.getElem_of_mem ha
        obtain ⟨j, hj, rfl⟩ := List.getElem_of_mem hb
        have hij : j ≠ i := by
          rintro rfl
          have := hab.2.2 rfl
          omega
        refine hf (j, i) ?_ ?_
        · rw [mem_pairsIter, List.length_map]; exact ⟨hj, hi, hij⟩
        · simp only
          rw [hlead ks i hi, hlead ks j hj]
          exact hab.2.1
      refine List.Perm.eq_of_pairwise (fun a b _ _ h1 h2 => absurd h1 (by omega)) hs
        (List.pairwise_lt_range.filter _) ?_
      refine (List.perm_ext_iff_of_nodup (hs.imp fun h => by omega)
        (List.nodup_range.filter _)).mpr fun k => ?_
      rw [List.mem_filter, List.mem_range, decide_eq_true_eq]
      constructor
      · intro hk
        refine ⟨hlt k hk, fun j hj => ?_⟩
        by_cases hjk : j ∈ ks
        · exact hno j hjk k hk hj
        · obtain ⟨a, ha, hab⟩ := hb j hj.1 hjk
          exact hno a ha k hk (hab.trans hj)
      · rintro ⟨hk, hk'⟩
        by_contra hcon
        obtain ⟨a, _, hab⟩ := hb k hk hcon
        exact hk' a hab
    · cases hstep
  · refine ⟨List.range gens.length, List.pairwise_lt_range, fun k hk => List.mem_range.mp hk, ?_,
      fun k hk hkn => absurd (List.mem_range.mpr hk) hkn⟩
    refine List.ext_getElem (by simp) fun i h1 h2 => ?_
    simp [List.getD, h1]

/-! ## C124 which elements `buchberger_extend` adds -/

/-- Dividing by a coefficient keeps the exponents. -/
theorem divCoef_descending {q r : Poly F} {c : F} (hq : Poly.Clean (Fin n) q)
    (hqd : Descending m q) (hc : wf c) (hv : (val c : K) ≠ 0) (h : Poly.divCoef q c = .ok r) :
    Descending m r := by
  unfold Poly.divCoef at h
  rw [bind_eq_ok] at h
  obtain ⟨d, hd, h⟩ := h
  obtain ⟨hdw, hdv⟩ := (LawfulRField.inv_spec _ hc hv).of_ok hd
  have hd0 : (val d : K) ≠ 0 := by rw [hdv]; exact inv_ne_zero hv
  have hz : (Term.constantUnchecked d : Term F).isZero = false := Term.isZero_false hdw hd0
  have hall := (C123_mul_term q r _ (fun s hs => Term.isZero_false (hq.terms s hs).wf
    (hq.terms s hs).ne) hz).mp h
  have hmap : r.map (fun t => t.mdeg.toF (Fin n)) = q.map fun t => t.mdeg.toF (Fin n) := by
    have hcl := hq.terms
    clear hq hqd h
    induction hall with
    | nil => rfl
    | @cons s u q r hsu _ ih =>
      rw [List.map_cons, List.map_cons, ih fun t ht => hcl t (by simp [ht])]
      congr 1
      have hadd := hsu.2
      rw [LawfulRField.build_debug (K := K)] at hadd
      obtain ⟨-, hdeg⟩ := (MDeg.add_spec (hcl s (by simp)).mdeg MDeg.zero_clean).of_ok hadd
      rw [MDeg.toF_eq_add hdeg]
      exact (congrArg _ MDeg.toF_zero).trans (add_zero _)
  unfold Descending at hqd ⊢
  rw [← List.pairwise_map (f := fun t : Term F => t.mdeg.toF (Fin n))
    (R := fun a b => m.toSyn b < m.toSyn a)] at hqd ⊢
  rw [hmap]; exact hqd

theorem extendFor_desc (hO : Implements O m) {gens : List (Poly F)} (hg : GenOk (Fin n) gens)
    {i : ℕ} (hi : i < gens.length) (L : List ℕ) (hL : ∀ j ∈ L, j < gens.length) {r : Poly F}
    (h : Computer.extendFor O gens i L = .ok (some r)) : Descending m r := by
  induction L with
  | nil => cases h
  | cons j rest ih =>
    have hj := hL j (by simp)
    have mi := List.getElem_mem hi
    have mj := List.getElem_mem hj
    unfold Computer.extendFor at h
    rw [bind_eq_ok] at h
    obtain ⟨gi, hgi, h⟩ := h
    obtain rfl := (index_spec (E := fun _ => True) hi).of_ok hgi
    rw [bind_eq_ok] at h
    obtain ⟨gj, hgj, h⟩ := h
    obtain rfl := (index_spec (E := fun _ => True) hj).of_ok hgj
    rw [bind_eq_ok] at h
    obtain ⟨o, ho, h⟩ := h
    obtain ⟨s, rfl, hs, -, -⟩ := (spair_step (hO.poly (F := F)) polyPanic_allowed
      (hg _ mi).1 (hg _ mi).2 (hg _ mj).1 (hg _ mj).2).of_ok ho
    simp only at h
    rw [bind_eq_ok] at h
    obtain ⟨⟨q, qs⟩, hq, h⟩ := h
    have hqd := C98_descending hO s gens hs (fun g h => (hg g h).1) q qs hq
    have hqc := ((divide_gens (hO.poly (F := F)) polyPanic_allowed (fun g h => (hg g h).1)
      hs).of_ok hq).1
    simp only at h
    rw [bind_eq_ok] at h
    obtain ⟨o, ho, h⟩ := h
    rcases o with _ | lc
    · exact ih (fun j hj => hL j (by simp [hj])) h
    · obtain ⟨-, hwf, hv, -⟩ := (leadingCoef_spec (hO.poly (F := F)) hqc in_true).of_ok ho
      simp only at h
      rw [bind_eq_ok] at h
      obtain ⟨r', hr', h⟩ := h
      cases h
      exact divCoef_descending hqc hqd hwf hv hr'

/-- C124. `buchberger_extend` keeps the generators, unchanged and in their order, and appends monic
elements of the ideal, written in descending order, whose leading monomial is divisible by that of
no earlier element. -/
theorem C124_extend (hO : Implements O m) (gens : List (Poly F))
    (hg : ∀ g ∈ gens, Poly.Clean (Fin n) g ∧ Poly.den (Fin n) g ≠ 0) (G : List (Poly F))
    (h : Computer.buchbergerExtend O gens = .ok G) :
    ∃ extra, G = gens ++ extra ∧
      (∀ r ∈ extra, Poly.Clean (Fin n) r ∧ Descending m r ∧
        m.leadingCoeff (Poly.den (Fin n) r) = 1 ∧
        Poly.den (Fin n) r ∈ Ideal.span (dens (Fin n) gens)) ∧
      ∀ j k, gens.length ≤ k → j < k → k < G.length → ¬ lead m G j ≤ lead m G k := by
  have hok : GenOk (Fin n) gens := fun g h => ⟨(hg g h).1, fun h0 => (hg g h).2 (by rw [h0]; rfl)⟩
  refine loop_partial (step := Computer.extendStep O)
    (fun s => GenOk (Fin n) s.1 ∧
      (Ideal.span (dens (Fin n) s.1) : Ideal (MvPolynomial (Fin n) K)) =
        Ideal.span (dens (Fin n) gens) ∧
      ∃ extra, s.1 = gens ++ extra ∧
      (∀ r ∈ extra, Poly.Clean (Fin n) r ∧ Descending m r ∧
        m.leadingCoeff (Poly.den (Fin n) r) = 1 ∧
        Poly.den (Fin n) r ∈ Ideal.span (dens (Fin n) gens)) ∧
      ∀ j k, gens.length ≤ k → j < k → k < s.1.length → ¬ lead m s.1 j ≤ lead m s.1 k)
    (fun G => ∃ extra, G = gens ++ extra ∧
      (∀ r ∈ extra, Poly.Clean (Fin n) r ∧ Descending m r ∧
        m.leadingCoeff (Poly.den (Fin n) r) = 1 ∧
        Poly.den (Fin n) r ∈ Ideal.span (dens (Fin n) gens)) ∧
      ∀ j k, gens.length ≤ k → j < k → k < G.length → ¬ lead m G j ≤ lead m G k) ?_ ?_ ?_ h
  · rintro ⟨H, i⟩ s' ⟨hH, hsp, extra, h1, h2, h3⟩ hstep
    simp only at h1 h2 h3 hH hsp
    unfold Computer.extendStep at hstep
    simp only at hstep
    split at hstep
    · rename_i hi
      rw [bind_eq_ok] at hstep
      obtain ⟨o, ho, hstep⟩ := hstep
      have hL : ∀ j ∈ List.range i, j < H.length := by
        intro j hj
        have := List.mem_range.mp hj
        omega
      have hs := (extendFor_spec (hO.poly (F := F)) polyPanic_allowed hH hi _ hL).of_ok ho
      rcases o with _ | r
      · cases hstep
        exact ⟨hH, hsp, extra, h1, h2, h3⟩
      · cases hstep
        obtain ⟨hr, hrne, hrm, hrlc, hrdeg⟩ := hs
        refine ⟨?_, ?_, extra ++ [r], by rw [h1, List.append_assoc], ?_, ?_⟩
        · intro g hg
          rcases List.mem_append.mp hg with h | h
          · exact hH g h
          · rw [List.mem_singleton.mp h]; exact ⟨hr, hrne⟩
        · simp only
          rw [← hsp, dens_append_singleton]
          exact le_antisymm (Ideal.span_le.mpr (Set.insert_subset hrm Ideal.subset_span))
            (Ideal.span_mono (Set.subset_insert _ _))
        · intro g hg
          rcases List.mem_append.mp hg with h | h
          · exact h2 g h
          · rw [List.mem_singleton.mp h]
            exact ⟨hr, extendFor_desc hO hH hi _ hL ho, hrlc, hsp ▸ hrm⟩
        · intro j k hk hjk hlt
          have hl : ∀ a, a < H.length → lead m (H ++ [r]) a = lead m H a := by
            intro a ha
            unfold lead
            rw [List.getD_append _ _ _ _ ha]
          simp only [List.length_append, List.length_singleton] at hlt ⊢
          rcases Nat.lt_succ_iff_lt_or_eq.mp hlt with h | rfl
          · rw [hl j (by omega), hl k h]
            exact h3 j k hk hjk h
          · rw [hl j hjk, lead_getElem hjk]
            have : lead m (H ++ [r]) H.length = m.degree (Poly.den (Fin n) r) := by
              unfold lead
              simp [List.getD]
            rw [this]
            exact hrdeg _ (mem_dens (List.getElem_mem hjk)) (hH.den_ne (List.getElem_mem hjk))
    · cases hstep
  · rintro ⟨H, i⟩ R ⟨hH, hsp, extra, h1, h2, h3⟩ hstep
    unfold Computer.extendStep at hstep
    simp only at hstep
    split at hstep
    · rw [bind_eq_ok] at hstep
      obtain ⟨o, ho, hstep⟩ := hstep
      rcases o with _ | r <;> cases hstep
    · cases hstep
      exact ⟨extra, h1, h2, h3⟩
  · exact ⟨hok, rfl, [], by simp, by simp, fun j k hk _ hlt => absurd hlt (by simp only; omega)⟩

/-! ## C125 what `buchberger_reduce` does to them -/

/-- `reduceFor` stops at the first pair. -/
theorem reduceFor_first (hO : Implements O m) {gens : List (Poly F)} (hg : GenOk (Fin n) gens)
    (L : List (ℕ × ℕ)) (hL : ∀ x ∈ L, x ∈ Computer.pairsIter gens.length) :
    Spec (PolyPanic F) (Computer.reduceFor O gens L) (fun o => match o with
      | none => ∀ x ∈ L, ¬ ∃ e ∈ (Poly.den (Fin n) (gens.getD x.1 [])).support,
          lead m gens x.2 ≤ e
      | some i => ∃ pre j suf, L = pre ++ (i, j) :: suf ∧
          (∃ e ∈ (Poly.den (Fin n) (gens.getD i [])).support, lead m gens j ≤ e) ∧
          ∀ x ∈ pre, ¬ ∃ e ∈ (Poly.den (Fin n) (gens.getD x.1 [])).support,
            lead m gens x.2 ≤ e) := by
  induction L with
  | nil => intro x hx; simp at hx
  | cons x rest ih =>
    obtain ⟨i, j⟩ := x
    obtain ⟨hi, hj, hij⟩ := mem_pairsIter.mp (hL (i, j) (by simp))
    unfold Computer.reduceFor
    refine (index_spec hi).bind ?_
    rintro gi rfl
    refine (index_spec hj).bind ?_
    rintro gj rfl
    have mi := List.getElem_mem hi
    have mj := List.getElem_mem hj
    refine (reduceTerms_spec (hO.poly (F := F)) (hg _ mj).1 (hg _ mj).2 gens[i]
      (hg _ mi).1.terms).bind fun b hb => ?_
    have hb' : b = true ↔ ∃ e ∈ (Poly.den (Fin n) (gens.getD i [])).support,
        lead m gens j ≤ e := by
      rw [hb, lead_getElem hj]
      simp only [List.getD, hi, List.getElem?_eq_getElem, Option.getD_some]
      constructor
      · rintro ⟨t, ht, hle⟩
        exact ⟨_, (Poly.mem_support_den (hg _ mi).1).mpr ⟨t, ht, rfl⟩, hle⟩
      · rintro ⟨e, he, hle⟩
        obtain ⟨t, ht, rfl⟩ := (Poly.mem_support_den (hg _ mi).1).mp he
        exact ⟨t, ht, hle⟩
    split
    · rename_i hd
      exact ⟨[], j, rest, rfl, hb'.mp hd, by simp⟩
    · rename_i hd
      refine (ih fun x hx => hL x (by simp [hx])).imp ?_
      rintro (_ | k) h
      · intro x hx
        rcases List.mem_cons.mp hx with rfl | hx
        · exact fun hle => hd (hb'.mpr hle)
        · exact h x hx
      · obtain ⟨pre, j', suf, h1, h2, h3⟩ := h
        refine ⟨(i, j) :: pre, j', suf, by rw [h1]; rfl, h2, fun x hx => ?_⟩
        rcases List.mem_cons.mp hx with rfl | hx
        · exact fun hle => hd (hb'.mpr hle)
        · exact h3 x hx

theorem split_middle {α : Type} {R : α → Prop} {A Q B X Y : List α} {g : α}
    (h : A ++ Q ++ B = X ++ g :: Y) (hA : ∀ a ∈ A, R a) (hB : ∀ b ∈ B, R b) (hg : ¬ R g) :
    ∃ Q1 Q2, X = A ++ Q1 ∧ Q = Q1 ++ g :: Q2 ∧ Y = Q2 ++ B := by
  rw [List.append_assoc] at h
  rcases List.append_eq_append_iff.mp h with ⟨Q1, h1, h2⟩ | ⟨C, h1, h2⟩
  · rcases List.append_eq_append_iff.mp h2 with ⟨C, h3, h4⟩ | ⟨C, h3, h4⟩
    · exfalso
      rcases C with _ | ⟨c, C⟩
      · simp only [List.nil_append] at h4
        exact hg (hB g (by rw [h4]; simp))
      · exact hg (hB g (by rw [h4]; simp))
    · rcases C with _ | ⟨c, C⟩
      · exfalso
        simp only [List.nil_append] at h4
        exact hg (hB g (by rw [← h4]; simp))
      · obtain ⟨rfl, rfl⟩ := List.cons.inj h4
        exact ⟨Q1, C, h1, h3, rfl⟩
  · rcases C with _ | ⟨c, C⟩
    · simp only [List.nil_append] at h2
      rw [List.append_nil] at h1
      subst h1
      rcases Q with _ | ⟨q, Q⟩
      · exfalso
        simp only [List.nil_append] at h2
        exact hg (hB g (by rw [← h2]; simp))
      · obtain ⟨rfl, rfl⟩ := List.cons.inj h2
        exact ⟨[], Q, by simp, rfl, rfl⟩
    · obtain ⟨rfl, rfl⟩ := List.cons.inj h2
      exact absurd (hA g (by rw [h1]; simp)) hg

/-- `b` is `g` with its tail reduced: same leading term, no term divisible by the leading monomial
of another element of `gens`, congruent to `g`, written in descending order. -/
def TailReduced (m : MonomialOrder (Fin n)) (gens : List (Poly F)) (g b : Poly F) : Prop :=
  Poly.Clean (Fin n) b ∧ Descending m b ∧
  m.degree (Poly.den (Fin n) b) = m.degree (Poly.den (Fin n) g) ∧
  m.leadingCoeff (Poly.den (Fin n) b) = m.leadingCoeff (Poly.den (Fin n) g) ∧
  RedWrt m (leads m gens) (Poly.den (Fin n) b) ∧
  Poly.den (Fin n) g - Poly.den (Fin n) b ∈ Ideal.span (dens (Fin n) gens)

open Classical in
/-- C125. `buchberger_reduce`, on polynomials no leading monomial of which divides another, keeps the
elements that are already reduced, unchanged and in their order, in front; after them come the
others, in their order, with reduced tails. -/
theorem C125_reduce (hO : Implements O m) (gens : List (Poly F))
    (hg : ∀ g ∈ gens, Poly.Clean (Fin n) g ∧ Poly.den (Fin n) g ≠ 0)
    (hinc : LeadsIncomparable m gens) (G : List (Poly F))
    (h : Computer.buchbergerReduce O gens = .ok G) :
    ∃ B, G = gens.filter (fun g => RedWrt m (leads m gens) (Poly.den (Fin n) g)) ++ B ∧
      List.Forall₂ (TailReduced m gens)
        (gens.filter fun g => ¬ RedWrt m (leads m gens) (Poly.den (Fin n) g)) B := by
  have hok : GenOk (Fin n) gens := fun g h => ⟨(hg g h).1, fun h0 => (hg g h).2 (by rw [h0]; rfl)⟩
  set Red : Poly F → Prop := fun g => RedWrt m (leads m gens) (Poly.den (Fin n) g) with hRed
  have hiff : ∀ H : List (Poly F), GenOk (Fin n) H → LeadsIncomparable m H →
      leads m H = leads m gens → ∀ (i : ℕ) (hi : i < H.length), Red H[i] ↔
        ∀ j, j < H.length → j ≠ i → ¬ ∃ e ∈ (Poly.den (Fin n) (H.getD i [])).support,
          lead m H j ≤ e := by
    intro H hH hin hl i hi
    simp only [List.getD, hi, List.getElem?_eq_getElem, Option.getD_some]
    have hin' : ∀ a b (ha : a < H.length) (hb : b < H.length), a ≠ b →
        m.degree (Poly.den (Fin n) H[a]) ≠ m.degree (Poly.den (Fin n) H[b]) := by
      intro a b ha hb hab he
      rcases Nat.lt_or_gt_of_ne hab with h | h
      · exact (List.pairwise_iff_getElem.mp hin a b ha hb h).1 he.le
      · exact (List.pairwise_iff_getElem.mp hin b a hb ha h).1 he.ge
    constructor
    · rintro hR j hj hji ⟨e, he, hle⟩
      rw [lead_getElem hj] at hle
      exact hR _ (hl ▸ ⟨_, List.getElem_mem hj, rfl⟩) (hin' j i hj hi hji) e he hle
    · intro hR d hd hne e he hle
      rw [← hl] at hd
      obtain ⟨g, hgm, rfl⟩ := hd
      obtain ⟨j, hj, rfl⟩ := List.getElem_of_mem hgm
      refine hR j hj ?_ ⟨e, he, by rw [lead_getElem hj]; exact hle⟩
      rintro rfl
      exact hne rfl
  refine loop_partial (step := Computer.reduceStep O)
    (fun H => GenOk (Fin n) H ∧ LeadsIncomparable m H ∧ leads m H = leads m gens ∧
      (Ideal.span (dens (Fin n) H) : Ideal (MvPolynomial (Fin n) K)) ≤
        Ideal.span (dens (Fin n) gens) ∧
      ∃ P Q B, gens = P ++ Q ∧ H = P.filter (fun g => Red g) ++ Q ++ B ∧
        List.Forall₂ (TailReduced m gens) (P.filter fun g => ¬ Red g) B)
    (fun H => ∃ B, H = gens.filter (fun g => Red g) ++ B ∧
      List.Forall₂ (TailReduced m gens) (gens.filter fun g => ¬ Red g) B) ?_ ?_ ?_ h
  · rintro H H' ⟨hH, hin, hl, hsp, P, Q, B, hPQ, hHe, hB⟩ hstep
    unfold Computer.reduceStep at hstep
    rw [bind_eq_ok] at hstep
    obtain ⟨o, ho, hstep⟩ := hstep
    have hf := (reduceFor_first hO hH _ fun x hx => hx).of_ok ho
    rcases o with _ | i
    · cases hstep
    obtain ⟨pre, j, suf, h1, h2, h3⟩ := hf
    obtain ⟨hi, hj, hij⟩ := mem_pairsIter.mp (show (i, j) ∈ Computer.pairsIter H.length by
      rw [h1]; simp)
    simp only at hstep
    rw [bind_eq_ok] at hstep
    obtain ⟨g, hgi, hstep⟩ := hstep
    obtain rfl := (index_spec (E := fun _ => True) hi).of_ok hgi
    rw [bind_eq_ok] at hstep
    obtain ⟨⟨r, qs⟩, hr, hstep⟩ := hstep
    cases hstep
    have mi := List.getElem_mem hi
    have hsub : ∀ g ∈ H.eraseIdx i, g ∈ H := fun g hg => List.mem_of_mem_eraseIdx hg
    have hperm : (H[i] :: H.eraseIdx i).Perm H := List.getElem_cons_eraseIdx_perm hi
    have hinc' : LeadsIncomparable m (H[i] :: H.eraseIdx i) := hin.perm hperm.symm
    have hothers := (List.pairwise_cons.mp hinc').1
    have hdesc := C98_descending hO _ _ (hH _ mi).1 (fun g h => (hH g (hsub g h)).1) r qs
      hr
    obtain ⟨hrc, hred, hspan, hbelow⟩ := (divide_gens (hO.poly (F := F)) polyPanic_allowed
      (fun g h => (hH g (hsub g h)).1) (hH _ mi).1).of_ok hr
    simp only at hrc hred hspan hbelow
    have hlt : m.degree (Poly.den (Fin n) r) = m.degree (Poly.den (Fin n) H[i]) ∧
        m.leadingCoeff (Poly.den (Fin n) r) = m.leadingCoeff (Poly.den (Fin n) H[i]) := by
      refine rem_leading (hH.den_ne mi) ?_ (fun e he => (hred e he).1) hbelow
      rintro _ ⟨g, hg, rfl⟩ _
      exact (hothers g hg).2
    have hr0 : Poly.den (Fin n) r ≠ 0 := by
      rw [← m.leadingCoeff_ne_zero_iff, hlt.2, m.leadingCoeff_ne_zero_iff]
      exact hH.den_ne mi
    have hlead' : leads m (H.eraseIdx i ++ [r]) = leads m H := by
      ext d
      constructor
      · rintro ⟨g, hg, rfl⟩
        rcases List.mem_append.mp hg with h | h
        · exact ⟨g, hsub g h, rfl⟩
        · rw [List.mem_singleton.mp h]; exact ⟨_, mi, hlt.1⟩
      · rintro ⟨g, hg, rfl⟩
        rcases List.mem_cons.mp (hperm.mem_iff.mpr hg) with rfl | h
        · exact ⟨r, by simp, hlt.1.symm⟩
        · exact ⟨g, by simp [h], rfl⟩
    have hspanH : (Ideal.span (dens (Fin n) (H.eraseIdx i)) : Ideal (MvPolynomial (Fin n) K)) ≤
        Ideal.span (dens (Fin n) gens) := by
      refine le_trans (Ideal.span_mono ?_) hsp
      rintro _ ⟨g, hg, rfl⟩
      exact mem_dens (hsub g hg)
    have hredr : Red r := by
      rintro d hd hne e he
      rw [← hl, ← hlead'] at hd
      obtain ⟨g, hg, rfl⟩ := hd
      rcases List.mem_append.mp hg with h | h
      · exact (hred e he).2 _ (mem_dens h) (hH.den_ne (hsub g h))
      · rw [List.mem_singleton.mp h] at hne; exact absurd rfl hne
    have hnot : ¬ Red H[i] := fun hR => (hiff H hH hin hl i hi).mp hR j hj hij.symm h2
    have hpre : ∀ a ∈ H.take i, Red a := by
      intro a ha
      obtain ⟨k, hk, rfl⟩ := List.getElem_of_mem ha
      have hki : k < i := by rw [List.length_take] at hk; omega
      rw [List.getElem_take]
      refine (hiff H hH hin hl k (by omega)).mpr fun b hb hbk => ?_
      exact h3 (k, b) (pairsIter_before h1 (mem_pairsIter.mpr ⟨by omega, hb, hbk.symm⟩)
        (.inl hki))
    have hdec : P.filter (fun g => Red g) ++ Q ++ B = H.take i ++ H[i] :: H.drop (i + 1) := by
      rw [← hHe, List.getElem_cons_drop, List.take_append_drop]
    have hBred : ∀ b ∈ B, Red b := by
      have : ∀ (l1 l2 : List (Poly F)), List.Forall₂ (TailReduced m gens) l1 l2 →
          ∀ b ∈ l2, Red b := by
        intro l1 l2 h
        induction h with
        | nil => simp
        | cons h _ ih => exact List.forall_mem_cons.mpr ⟨h.2.2.2.2.1, ih⟩
      exact this _ _ hB
    obtain ⟨Q1, Q2, e1, e2, e3⟩ := split_middle hdec
      (fun a ha => by simpa using (List.mem_filter.mp ha).2) hBred hnot
    have hQ1 : ∀ a ∈ Q1, Red a := fun a ha => hpre a (by rw [e1]; simp [ha])
    have he : H.eraseIdx i = P.filter (fun g => Red g) ++ Q1 ++ (Q2 ++ B) := by
      rw [List.eraseIdx_eq_take_drop_succ, e1, e3]
    refine ⟨?_, ?_, hlead'.trans hl, ?_, P ++ (Q1 ++ [H[i]]), Q2, B ++ [r], ?_, ?_, ?_⟩
    · intro g hg
      rcases List.mem_append.mp hg with h | h
      · exact hH g (hsub g h)
      · rw [List.mem_singleton.mp h]; exact ⟨hrc, by rintro rfl; exact hr0 rfl⟩
    · refine LeadsIncomparable.perm (List.perm_append_singleton r _).symm ?_
      refine List.pairwise_cons.mpr ⟨?_, (List.pairwise_cons.mp hinc').2⟩
      rw [hlt.1]
      exact hothers
    · rw [dens_append_singleton]
      refine Ideal.span_le.mpr (Set.insert_subset ?_ (Ideal.span_le.mp hspanH))
      have := Ideal.sub_mem _ (hsp (Ideal.subset_span (mem_dens mi))) (hspanH hspan)
      rwa [sub_sub_cancel] at this
    · rw [hPQ, e2]; simp
    · rw [he, List.filter_append, List.filter_append,
        (List.filter_eq_self (l := Q1)).mpr (by simpa using hQ1)]
      simp [hnot]
    · rw [List.filter_append, List.filter_append,
        (List.filter_eq_nil_iff (l := Q1)).mpr (by simpa using hQ1)]
      have : List.filter (fun g => decide ¬ Red g) [H[i]] = [H[i]] := by simp [hnot]
      rw [this, List.nil_append]
      refine List.rel_append hB (.cons ⟨hrc, hdesc, hlt.1, hlt.2, hredr, hspanH hspan⟩ .nil)
  · rintro H R ⟨hH, hin, hl, hsp, P, Q, B, hPQ, hHe, hB⟩ hstep
    unfold Computer.reduceStep at hstep
    rw [bind_eq_ok] at hstep
    obtain ⟨o, ho, hstep⟩ := hstep
    have hf := (reduceFor_first hO hH _ fun x hx => hx).of_ok ho
    rcases o with _ | i
    · cases hstep
      have hall : ∀ a ∈ H, Red a := by
        intro a ha
        obtain ⟨k, hk, rfl⟩ := List.getElem_of_mem ha
        refine (hiff H hH hin hl k hk).mpr fun b hb hbk => ?_
        exact hf (k, b) (mem_pairsIter.mpr ⟨hk, hb, hbk.symm⟩)
      have hQ : ∀ a ∈ Q, Red a := fun a ha => hall a (by rw [hHe]; simp [ha])
      refine ⟨B, ?_, ?_⟩
      · rw [hHe]
        conv_rhs => rw [hPQ]
        rw [List.filter_append, (List.filter_eq_self (l := Q)).mpr (by simpa using hQ)]
      · have e : gens.filter (fun g => ¬ Red g) = P.filter fun g => ¬ Red g := by
          conv_lhs => rw [hPQ]
          rw [List.filter_append, (List.filter_eq_nil_iff (l := Q)).mpr (by simpa using hQ),
            List.append_nil]
        rw [e]; exact hB
    · simp only at hstep
      rw [bind_eq_ok] at hstep
      obtain ⟨g, hgi, hstep⟩ := hstep
      rw [bind_eq_ok] at hstep
      obtain ⟨⟨r, qs⟩, hr, hstep⟩ := hstep
      cases hstep
  · exact ⟨hok, hinc, rfl, le_refl _, [], gens, [], rfl, by simp, .nil⟩

open Classical in
/-- C125. Which list `buchberger_algorithm` leaves: it appends some polynomials to the generators,
keeps those that no other one makes superfluous, and moves the ones among these whose tails are not
reduced to the back, reducing their tails. -/
theorem C125_algorithm (hO : Implements O m) (gens : List (Poly F))
    (hg : ∀ g ∈ gens, Poly.Clean (Fin n) g ∧ Poly.den (Fin n) g ≠ 0) (G : List (Poly F))
    (h : Computer.buchbergerAlgorithm O gens = .ok G) :
    ∃ extra M B, M = minimalOnes m (gens ++ extra) ∧
      (∀ r ∈ extra, Poly.Clean (Fin n) r ∧ Descending m r ∧
        m.leadingCoeff (Poly.den (Fin n) r) = 1 ∧
        Poly.den (Fin n) r ∈ Ideal.span (dens (Fin n) gens)) ∧
      (∀ j k, gens.length ≤ k → j < k → k < (gens ++ extra).length →
        ¬ lead m (gens ++ extra) j ≤ lead m (gens ++ extra) k) ∧
      G = M.filter (fun g => RedWrt m (leads m M) (Poly.den (Fin n) g)) ++ B ∧
      List.Forall₂ (TailReduced m M)
        (M.filter fun g => ¬ RedWrt m (leads m M) (Poly.den (Fin n) g)) B := by
  have hok : GenOk (Fin n) gens := fun g h => ⟨(hg g h).1, fun h0 => (hg g h).2 (by rw [h0]; rfl)⟩
  unfold Computer.buchbergerAlgorithm at h
  rw [bind_eq_ok] at h
  obtain ⟨g₁, h₁, h⟩ := h
  rw [bind_eq_ok] at h
  obtain ⟨g₂, h₂, h⟩ := h
  obtain ⟨extra, e1, e2, e2'⟩ := C124_extend hO gens hg g₁ h₁
  obtain ⟨k1, k2, -⟩ := (buchbergerExtend_spec (hO.poly (F := F)) polyPanic_allowed hok
    (fun _ => True) trivial fun _ _ => trivial).of_ok h₁
  obtain ⟨l1, -, -, l2⟩ := (buchbergerMinimize_spec (hO.poly (F := F)) k1
    (fun _ => True) (fun _ _ => trivial) k2).of_ok h₂
  have e3 := C124_minimize hO g₁ (fun g h => ⟨(k1 g h).1, k1.den_ne h⟩) g₂ h₂
  obtain ⟨B, e4, e5⟩ := C125_reduce hO g₂ (fun g h => ⟨(l1 g h).1, l1.den_ne h⟩) l2 G h
  exact ⟨extra, g₂, B, by rw [e3, e1], e2, e1 ▸ e2', e4, e5⟩

end

/-- The hypotheses hold, and the order of the result is the one claimed, for `x + y, y - 1` in the
lexicographic order, where the first generator moves to the back, and for `x, 2x`, of which the
second is kept. -/
example : letI := Rational.field .debug
    Implements (OrdKind.lex.order .debug) (OrdKind.lex.mathlib 2) ∧
    (∀ g ∈ [[⟨⟨1, 1⟩, [1]⟩, ⟨⟨1, 1⟩, [0, 1]⟩], [⟨⟨1, 1⟩, [0, 1]⟩, ⟨⟨-1, 1⟩, []⟩]],
      sampleOk 2 g) ∧
    Computer.buchbergerAlgorithm (OrdKind.lex.order .debug)
      ([[⟨⟨1, 1⟩, [1]⟩, ⟨⟨1, 1⟩, [0, 1]⟩], [⟨⟨1, 1⟩, [0, 1]⟩, ⟨⟨-1, 1⟩, []⟩]] :
        List (Poly Rational)) =
      .ok [[⟨⟨1, 1⟩, [0, 1]⟩, ⟨⟨-1, 1⟩, []⟩], [⟨⟨1, 1⟩, [1]⟩, ⟨⟨1, 1⟩, []⟩]] ∧
    Computer.buchbergerAlgorithm (OrdKind.lex.order .debug)
      ([[⟨⟨1, 1⟩, [1]⟩], [⟨⟨2, 1⟩, [1]⟩]] : List (Poly Rational)) = .ok [[⟨⟨2, 1⟩, [1]⟩]] := by
  let _ := Rational.field .debug
  exact ⟨OrdKind.implements _ _, by decide +kernel,
    (Computer.buchbergerAlgorithmN_approx 30 _).eq (by decide +kernel) (by simp),
    (Computer.buchbergerAlgorithmN_approx 30 _).eq (by decide +kernel) (by simp)⟩

end Verif
