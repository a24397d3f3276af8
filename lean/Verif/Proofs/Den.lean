import Verif.Proofs.MDeg
import Verif.Poly.Elts
import Mathlib.Algebra.MvPolynomial.Basic
import Mathlib.Data.Finsupp.Order

/-!
# What multidegrees, terms and polynomials denote

Variables are indexed by a type `σ` embedded in `ℕ`: `ℕ` itself (polynomials in arbitrarily many
variables) or `Fin n` (polynomials in the first `n` variables).
-/

namespace Verif
open Res MvPolynomial

/-- A type of variables embedded in the indices the code uses. -/
class VarIdx (σ : Type) where
  idx : σ ↪ ℕ

instance : VarIdx ℕ := ⟨Function.Embedding.refl ℕ⟩
instance (n : ℕ) : VarIdx (Fin n) := ⟨Fin.valEmbedding⟩

namespace MDeg

/-- All variables that occur in `m` are in `σ`. -/
def InVars (σ : Type) [VarIdx σ] (m : MDeg) : Prop :=
  ∀ i, m.deg i ≠ 0 → ∃ s : σ, VarIdx.idx s = i

theorem inVars_nat (m : MDeg) : InVars ℕ m := fun i _ => ⟨i, rfl⟩

theorem inVars_fin {n : ℕ} {m : MDeg} (h : m.Clean) : InVars (Fin n) m ↔ m.length ≤ n := by
  rw [length_le_iff h.last]
  constructor
  · intro hv i hi
    by_contra hc
    obtain ⟨s, rfl⟩ := hv i hc
    have := s.2
    change n ≤ s.1 at hi
    omega
  · intro hv i hi
    refine ⟨⟨i, ?_⟩, rfl⟩
    by_contra hc
    exact hi (hv i (by omega))

variable {σ : Type} [VarIdx σ]

/-- The exponent vector of `m`. -/
noncomputable def toF (σ : Type) [VarIdx σ] (m : MDeg) : σ →₀ ℕ :=
  Finsupp.onFinset ((Finset.range m.length).preimage VarIdx.idx VarIdx.idx.injective.injOn)
    (fun s => m.deg (VarIdx.idx s)) fun s hs => by
      rw [Finset.mem_preimage, Finset.mem_range]
      by_contra hc
      exact hs (deg_of_length_le (by omega))

@[simp] theorem toF_apply (m : MDeg) (s : σ) : toF σ m s = m.deg (VarIdx.idx s) := rfl

theorem toF_inj {a b : MDeg} (ha : a.Clean) (hb : b.Clean) (hav : a.InVars σ) (hbv : b.InVars σ)
    (h : toF σ a = toF σ b) : a = b := by
  refine ext_deg ha.last hb.last fun i => ?_
  by_cases h1 : a.deg i = 0
  · by_cases h2 : b.deg i = 0
    · rw [h1, h2]
    · obtain ⟨s, rfl⟩ := hbv i h2
      simpa using DFunLike.congr_fun h s
  · obtain ⟨s, rfl⟩ := hav i h1
    simpa using DFunLike.congr_fun h s

theorem toF_zero : toF σ MDeg.zero = 0 := by ext s; simp [MDeg.zero]

theorem InVars.zero : InVars σ MDeg.zero := fun i hi => absurd (deg_nil i) hi

theorem toF_eq_add {a b c : MDeg} (h : ∀ i, c.deg i = a.deg i + b.deg i) :
    toF σ c = toF σ a + toF σ b := by ext s; simp [h]

theorem InVars.add {a b c : MDeg} (ha : InVars σ a) (hb : InVars σ b)
    (h : ∀ i, c.deg i = a.deg i + b.deg i) : InVars σ c := by
  intro i hi
  by_cases h1 : a.deg i = 0
  · exact hb i (by rw [h i, h1] at hi; omega)
  · exact ha i h1

theorem toF_le_iff {a b : MDeg} (ha : InVars σ a) :
    toF σ a ≤ toF σ b ↔ ∀ i, a.deg i ≤ b.deg i := by
  constructor
  · intro h i
    by_cases h1 : a.deg i = 0
    · omega
    · obtain ⟨s, rfl⟩ := ha i h1; exact h s
  · intro h s; exact h _

theorem InVars.of_le {a b : MDeg} (hb : InVars σ b) (h : ∀ i, a.deg i ≤ b.deg i) : InVars σ a :=
  fun i hi => hb i (by have := h i; omega)

theorem add_den {a b : MDeg} (ha : a.Clean) (hb : b.Clean) (hav : a.InVars σ) (hbv : b.InVars σ) :
    Spec (fun p => p = .overflowU8 ∧ ∃ i, 256 ≤ a.deg i + b.deg i) (add .debug a b)
      (fun c => c.Clean ∧ c.InVars σ ∧ toF σ c = toF σ a + toF σ b) :=
  (add_spec ha hb).imp fun _ hc => ⟨hc.1, hav.add hbv hc.2, toF_eq_add hc.2⟩

theorem isSucc_den {a b : MDeg} (ha : a.Clean) (hav : a.InVars σ) :
    isSucc a b = true ↔ toF σ a ≤ toF σ b := by
  rw [isSucc_iff ha.last, toF_le_iff hav]

theorem checkedSub_den {a b : MDeg} (ha : a.Clean) (hb : b.Clean) (hav : a.InVars σ)
    (hbv : b.InVars σ) :
    match checkedSub a b with
    | none => ¬ toF σ b ≤ toF σ a
    | some c => toF σ b ≤ toF σ a ∧ c.Clean ∧ c.InVars σ ∧ toF σ a = toF σ c + toF σ b := by
  have h := checkedSub_spec ha hb
  split
  · rename_i hn; rw [hn] at h
    rw [toF_le_iff hbv]; push Not; exact h
  · rename_i c hn; rw [hn] at h
    have hadd : ∀ i, a.deg i = c.deg i + b.deg i := fun i => by
      have := h.1 i; have := h.2.2 i; omega
    refine ⟨(toF_le_iff hbv).mpr h.1, h.2.1, hav.of_le fun i => by have := hadd i; omega,
      toF_eq_add hadd⟩

/-- Every exponent vector below 256 in finitely many variables comes from a multidegree. -/
theorem exists_toF (e : σ →₀ ℕ) (he : ∀ s, e s < 256) :
    ∃ m : MDeg, m.Clean ∧ m.InVars σ ∧ toF σ m = e := by
  classical
  let n := (e.support.image VarIdx.idx).sup id + 1
  let f : ℕ → ℕ := fun i => if h : ∃ s : σ, VarIdx.idx s = i then e h.choose else 0
  have hf : ∀ s, f (VarIdx.idx s) = e s := fun s => by
    have h : ∃ s' : σ, VarIdx.idx s' = VarIdx.idx s := ⟨s, rfl⟩
    simp only [f, dif_pos h]
    rw [VarIdx.idx.injective h.choose_spec]
  have hd : ∀ i, MDeg.deg ((List.range n).map f) i = if i < n then f i else 0 := by
    intro i
    unfold MDeg.deg
    split
    · rename_i h; rw [List.getD_eq_getElem _ _ (by simpa using h)]; simp
    · rename_i h; rw [List.getD_eq_default _ _ (by simpa using h)]
  have hd' : ∀ s : σ, MDeg.deg (fromVec ((List.range n).map f)) (VarIdx.idx s) = e s := by
    intro s
    rw [deg_fromVec, hd]
    split
    · exact hf s
    · rename_i h
      by_contra hc
      have : s ∈ e.support := Finsupp.mem_support_iff.mpr fun h0 => hc (by rw [h0])
      have := Finset.le_sup (f := id) (Finset.mem_image_of_mem VarIdx.idx this)
      simp only [id] at this
      omega
  refine ⟨fromVec ((List.range n).map f), fromVec_clean ?_, ?_, ?_⟩
  · intro d hd
    simp only [List.mem_map] at hd
    obtain ⟨i, -, rfl⟩ := hd
    simp only [f]; split
    · exact he _
    · omega
  · intro i hi
    by_contra hc
    rw [deg_fromVec, hd] at hi
    simp only [f, dif_neg hc] at hi
    split at hi <;> exact hi rfl
  · ext s; exact hd' s

end MDeg

section
variable {F : Type} [RField F] {K : Type} [Field K] [LawfulRField F K] (σ : Type) [VarIdx σ]

open LawfulRField

/-- A term in the variables `σ` with well-formed coefficient and canonical multidegree. -/
structure Term.Ok (t : Term F) : Prop where
  wf : LawfulRField.wf t.coef
  mdeg : t.mdeg.Clean
  vars : t.mdeg.InVars σ

/-- A term with nonzero coefficient. -/
structure Term.Clean (t : Term F) : Prop extends Term.Ok σ t where
  ne : LawfulRField.val t.coef ≠ 0

/-- Canonical form of polynomials: canonical terms with nonzero coefficients and pairwise distinct
multidegrees. -/
structure Poly.Clean (p : Poly F) : Prop where
  terms : ∀ t ∈ p, Term.Clean σ t
  nodup : (p.map Term.mdeg).Nodup

/-- The element of `K[σ]` a term stands for. -/
noncomputable def Term.den (t : Term F) : MvPolynomial σ K :=
  monomial (t.mdeg.toF σ) (val t.coef)

/-- The element of `K[σ]` a polynomial stands for. -/
noncomputable def Poly.den (p : Poly F) : MvPolynomial σ K := (p.map (Term.den σ)).sum

end

section
variable {F : Type} [RField F] {K : Type} [Field K] [LawfulRField F K] {σ : Type} [VarIdx σ]

open LawfulRField

namespace Term

theorem isZero_iff {t : Term F} (h : wf t.coef) : t.isZero = true ↔ val t.coef = (0 : K) := by
  unfold isZero
  constructor
  · intro hb; rw [val_eq_of_beq _ _ hb, val_zero]
  · intro hv; exact beq_zero _ h hv

theorem isZero_false {t : Term F} (h : wf t.coef) (hv : val t.coef ≠ (0 : K)) : t.isZero = false := by
  rw [← Bool.not_eq_true, isZero_iff h]; exact hv

theorem den_eq_zero {t : Term F} : t.den σ = 0 ↔ val t.coef = (0 : K) := by
  unfold den; exact monomial_eq_zero

theorem zero_ok : (zero : Term F).Ok σ := ⟨wf_zero, MDeg.zero_clean, MDeg.InVars.zero⟩

@[simp] theorem den_zero : (zero : Term F).den σ = 0 := by
  rw [den_eq_zero]; exact val_zero

end Term

namespace Poly

@[simp] theorem den_nil : den σ ([] : Poly F) = 0 := rfl
@[simp] theorem den_cons (t : Term F) (p : Poly F) : den σ (t :: p) = t.den σ + den σ p := by
  simp [den]
@[simp] theorem den_append (p q : Poly F) : den σ (p ++ q) = den σ p + den σ q := by
  simp [den]

theorem clean_nil : Clean σ ([] : Poly F) := ⟨by simp, by simp⟩

theorem clean_cons {t : Term F} {p : Poly F} :
    Clean σ (t :: p) ↔ t.Clean σ ∧ Clean σ p ∧ ∀ u ∈ p, u.mdeg ≠ t.mdeg := by
  constructor
  · rintro ⟨h1, h2⟩
    rw [List.map_cons, List.nodup_cons] at h2
    exact ⟨h1 t (by simp), ⟨fun u hu => h1 u (by simp [hu]), h2.2⟩,
      fun u hu he => h2.1 (List.mem_map.mpr ⟨u, hu, he⟩)⟩
  · rintro ⟨h1, h2, h3⟩
    refine ⟨?_, ?_⟩
    · intro u hu
      rcases List.mem_cons.mp hu with rfl | hu
      · exact h1
      · exact h2.terms u hu
    · rw [List.map_cons, List.nodup_cons]
      refine ⟨fun hm => ?_, h2.nodup⟩
      obtain ⟨u, hu, he⟩ := List.mem_map.mp hm
      exact h3 u hu he

theorem clean_singleton {t : Term F} : Clean σ [t] ↔ t.Clean σ := by
  rw [clean_cons]; simp [clean_nil]

theorem Clean.perm {p q : Poly F} (h : Clean σ p) (hp : p.Perm q) : Clean σ q :=
  ⟨fun t ht => h.terms t (hp.mem_iff.mpr ht), (hp.map _).nodup_iff.mp h.nodup⟩

theorem den_perm {p q : Poly F} (hp : p.Perm q) : den σ p = den σ q := (hp.map _).sum_eq

theorem Clean.sublist {p q : Poly F} (h : Clean σ q) (hs : p.Sublist q) : Clean σ p :=
  ⟨fun t ht => h.terms t (hs.subset ht), h.nodup.sublist (hs.map _)⟩

/-- Coefficients of the denotation: none outside the listed multidegrees... -/
theorem coeff_den_of_forall {p : Poly F} {e : σ →₀ ℕ} (h : ∀ t ∈ p, t.mdeg.toF σ ≠ e) :
    coeff e (den σ p) = 0 := by
  classical
  induction p with
  | nil => simp
  | cons t p ih =>
    rw [den_cons, coeff_add, ih fun u hu => h u (by simp [hu]), Term.den, coeff_monomial,
      if_neg (h t (by simp)), add_zero]

/-- ... and the listed coefficient at each listed multidegree. -/
theorem coeff_den {p : Poly F} (h : Clean σ p) {t : Term F} (ht : t ∈ p) :
    coeff (t.mdeg.toF σ) (den σ p) = val t.coef := by
  classical
  induction p with
  | nil => simp at ht
  | cons u p ih =>
    obtain ⟨h1, h2, h3⟩ := clean_cons.mp h
    rw [den_cons, coeff_add, Term.den, coeff_monomial]
    rcases List.mem_cons.mp ht with rfl | ht
    · rw [if_pos rfl, coeff_den_of_forall, add_zero]
      intro u hu he
      have hu' := h2.terms u hu
      exact h3 u hu (MDeg.toF_inj hu'.mdeg h1.mdeg hu'.vars h1.vars he)
    · rw [if_neg, ih h2 ht, zero_add]
      intro he
      have hu' := h2.terms t ht
      exact h3 t ht (MDeg.toF_inj hu'.mdeg h1.mdeg hu'.vars h1.vars he.symm)

theorem mem_support_den {p : Poly F} (h : Clean σ p) {e : σ →₀ ℕ} :
    e ∈ (den σ p).support ↔ ∃ t ∈ p, t.mdeg.toF σ = e := by
  rw [mem_support_iff]
  constructor
  · intro hc
    by_contra hn
    push Not at hn
    exact hc (coeff_den_of_forall hn)
  · rintro ⟨t, ht, rfl⟩
    rw [coeff_den h ht]
    exact (h.terms t ht).ne

theorem den_eq_zero_iff {p : Poly F} (h : Clean σ p) : den σ p = 0 ↔ p = [] := by
  constructor
  · intro h0
    cases p with
    | nil => rfl
    | cons t p =>
      have := coeff_den h (t := t) (by simp)
      rw [h0, coeff_zero] at this
      exact absurd this.symm (h.terms t (by simp)).ne
  · rintro rfl; rfl

theorem isZero_iff {p : Poly F} (h : Clean σ p) : isZero p = true ↔ den σ p = 0 := by
  rw [den_eq_zero_iff h]; simp [isZero]

/-- A canonical polynomial is determined by what it denotes, up to the order of the terms and
the representation of the coefficients. -/
theorem den_inj {p q : Poly F} (hp : Clean σ p) (hq : Clean σ q) (h : den σ p = den σ q) :
    (p.map fun t => (t.mdeg, (val t.coef : K))).Perm (q.map fun t => (t.mdeg, (val t.coef : K))) := by
  have nd : ∀ p : Poly F, Clean σ p → (p.map fun t => (t.mdeg, (val t.coef : K))).Nodup := by
    intro p hp
    have := hp.nodup
    rw [show p.map Term.mdeg = (p.map fun t => (t.mdeg, (val t.coef : K))).map Prod.fst by simp] at this
    exact List.Nodup.of_map _ this
  have sub : ∀ p q : Poly F, Clean σ p → Clean σ q → den σ p = den σ q → ∀ x,
      x ∈ (p.map fun t => (t.mdeg, (val t.coef : K))) →
      x ∈ (q.map fun t => (t.mdeg, (val t.coef : K))) := by
    intro p q hp hq h x hx
    obtain ⟨t, ht, rfl⟩ := List.mem_map.mp hx
    have h1 : t.mdeg.toF σ ∈ (den σ q).support := h ▸ (mem_support_den hp).mpr ⟨t, ht, rfl⟩
    obtain ⟨u, hu, he⟩ := (mem_support_den hq).mp h1
    have htc := hp.terms t ht
    have huc := hq.terms u hu
    have hm := MDeg.toF_inj huc.mdeg htc.mdeg huc.vars htc.vars he
    refine List.mem_map.mpr ⟨u, hu, ?_⟩
    rw [hm, ← coeff_den hp ht, ← coeff_den hq hu, h, hm]
  exact (List.perm_ext_iff_of_nodup (nd p hp) (nd q hq)).mpr fun x =>
    ⟨sub p q hp hq h x, sub q p hq hp h.symm x⟩

theorem den_eq_of_perm {p q : Poly F}
    (h : (p.map fun t => (t.mdeg, (val t.coef : K))).Perm (q.map fun t => (t.mdeg, (val t.coef : K)))) :
    den σ p = den σ q := by
  have e : ∀ p : Poly F, den σ p =
      ((p.map fun t => (t.mdeg, (val t.coef : K))).map fun x => monomial (x.1.toF σ) x.2).sum := by
    intro p; rw [List.map_map]; rfl
  rw [e, e]; exact (h.map _).sum_eq

end Poly
end
end Verif
