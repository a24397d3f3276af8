import Mathlib.RingTheory.Localization.Away.Basic
import Mathlib.RingTheory.Ideal.Quotient.Operations
import Mathlib.Algebra.MvPolynomial.Rename
import Mathlib.Data.Fin.Tuple.Basic
import Mathlib.Algebra.Ring.GeomSum
import Mathlib.Tactic.Ring

/-!
# One more variable

Saturations and intersections of ideals as elimination ideals.
-/

namespace Verif
open MvPolynomial
namespace ExtraVar

variable {K : Type} [Field K] {k : ℕ}

/-- A polynomial in `k` variables as a polynomial in `k + 1` variables. -/
noncomputable def emb : MvPolynomial (Fin k) K →ₐ[K] MvPolynomial (Fin (k + 1)) K :=
  rename Fin.castSucc

/-- The last variable. -/
noncomputable def last : MvPolynomial (Fin (k + 1)) K := X (Fin.last k)

/-- The value for the last variable put in. -/
noncomputable def subst (c : MvPolynomial (Fin k) K) :
    MvPolynomial (Fin (k + 1)) K →ₐ[K] MvPolynomial (Fin k) K :=
  aeval (Fin.snoc (α := fun _ => MvPolynomial (Fin k) K) X c)

theorem subst_emb (c f : MvPolynomial (Fin k) K) : subst c (emb f) = f := by
  unfold subst emb
  rw [aeval_rename]
  have : (Fin.snoc (α := fun _ => MvPolynomial (Fin k) K) X c) ∘ Fin.castSucc = X := by
    funext i
    simp
  rw [this, aeval_X_left, AlgHom.id_apply]

theorem subst_last (c : MvPolynomial (Fin k) K) : subst c last = c := by
  unfold subst last
  rw [aeval_X, Fin.snoc_last]

/-- The saturation of an ideal is an elimination ideal. -/
theorem saturation (S : Set (MvPolynomial (Fin k) K)) (f g : MvPolynomial (Fin k) K) :
    emb g ∈ Ideal.span (emb '' S ∪ {1 - last * emb f}) ↔ ∃ N : ℕ, f ^ N * g ∈ Ideal.span S := by
  constructor
  · intro h
    let fb : MvPolynomial (Fin k) K ⧸ Ideal.span S := Ideal.Quotient.mk _ f
    let L := Localization.Away fb
    let a : MvPolynomial (Fin k) K →+* L :=
      (algebraMap (MvPolynomial (Fin k) K ⧸ Ideal.span S) L).comp (Ideal.Quotient.mk (Ideal.span S))
    let φ : MvPolynomial (Fin (k + 1)) K →+* L := eval₂Hom (a.comp C)
      (Fin.snoc (α := fun _ => L) (fun i => a (X i)) (IsLocalization.Away.invSelf fb))
    have h1 : ∀ p, φ (emb p) = a p := by
      intro p
      have : φ.comp (emb : MvPolynomial (Fin k) K →ₐ[K] _).toRingHom = a := by
        refine MvPolynomial.ringHom_ext (fun c => ?_) fun i => ?_
        · simp [φ, emb]
        · simp [φ, emb]
      exact congrArg (fun ψ : MvPolynomial (Fin k) K →+* L => ψ p) this
    have h2 : φ last * a f = 1 := by
      have : φ last = IsLocalization.Away.invSelf fb := by simp [φ, last]
      rw [this, mul_comm]
      exact IsLocalization.Away.mul_invSelf fb
    have h3 : Ideal.span (emb '' S ∪ {1 - last * emb f}) ≤ RingHom.ker φ := by
      rw [Ideal.span_le]
      rintro x (⟨s, hs, rfl⟩ | rfl)
      · change φ (emb s) = 0
        rw [h1]
        change algebraMap _ L (Ideal.Quotient.mk (Ideal.span S) s) = 0
        rw [Ideal.Quotient.eq_zero_iff_mem.mpr (Ideal.subset_span hs), map_zero]
      · change φ _ = 0
        rw [map_sub, map_one, map_mul, h1, h2, sub_self]
    have h4 : algebraMap _ L (Ideal.Quotient.mk (Ideal.span S) g) = 0 := by
      have := h3 h
      rw [RingHom.mem_ker, h1] at this
      exact this
    rw [IsLocalization.map_eq_zero_iff (Submonoid.powers fb)] at h4
    obtain ⟨⟨_, N, rfl⟩, hN⟩ := h4
    refine ⟨N, Ideal.Quotient.eq_zero_iff_mem.mp ?_⟩
    rw [map_mul, map_pow]
    exact hN
  · rintro ⟨N, h⟩
    have h1 : emb (f ^ N * g) ∈ Ideal.span (emb '' S ∪ {1 - last * emb f}) := by
      have : Ideal.span S ≤ (Ideal.span (emb '' S ∪ {1 - last * emb f})).comap
          (emb : MvPolynomial (Fin k) K →ₐ[K] MvPolynomial (Fin (k + 1)) K) := by
        rw [Ideal.span_le]
        intro s hs
        exact Ideal.subset_span (.inl ⟨s, hs, rfl⟩)
      exact this h
    have h2 : (1 - (last * emb f) ^ N) ∈ Ideal.span (emb '' S ∪ {1 - last * emb f}) :=
      Ideal.mem_of_dvd _ (by have := sub_dvd_pow_sub_pow 1 (last * emb f) N; rwa [one_pow] at this)
        (Ideal.subset_span (.inr rfl))
    have e : emb g = (1 - (last * emb f) ^ N) * emb g + last ^ N * emb (f ^ N * g) := by
      rw [map_mul, map_pow]; ring
    rw [e]
    exact Ideal.add_mem _ (Ideal.mul_mem_right _ _ h2) (Ideal.mul_mem_left _ _ h1)

theorem mul_emb_mem {S : Set (MvPolynomial (Fin k) K)} {J : Ideal (MvPolynomial (Fin (k + 1)) K)}
    {c : MvPolynomial (Fin (k + 1)) K} (h : ∀ s ∈ S, c * emb s ∈ J) {g : MvPolynomial (Fin k) K}
    (hg : g ∈ Ideal.span S) : c * emb g ∈ J := by
  induction hg using Submodule.span_induction with
  | mem s hs => exact h s hs
  | zero => rw [map_zero, mul_zero]; exact J.zero_mem
  | add x y _ _ hx hy => rw [map_add, mul_add]; exact J.add_mem hx hy
  | smul a x _ hx => rw [smul_eq_mul, map_mul, mul_left_comm]; exact J.mul_mem_left _ hx

/-- The intersection of ideals is an elimination ideal. -/
theorem intersection (S T : Set (MvPolynomial (Fin k) K)) (g : MvPolynomial (Fin k) K) :
    emb g ∈ Ideal.span ((fun s => last * emb s) '' S ∪ (fun s => emb s - last * emb s) '' T) ↔
      g ∈ Ideal.span S ∧ g ∈ Ideal.span T := by
  constructor
  · intro h
    constructor
    · have : Ideal.span ((fun s => last * emb s) '' S ∪ (fun s => emb s - last * emb s) '' T) ≤
          (Ideal.span S).comap (subst 1 : MvPolynomial (Fin (k + 1)) K →ₐ[K] _) := by
        rw [Ideal.span_le]
        rintro x (⟨s, hs, rfl⟩ | ⟨s, hs, rfl⟩)
        · rw [SetLike.mem_coe, Ideal.mem_comap]
          rw [map_mul, subst_last, subst_emb, one_mul]
          exact Ideal.subset_span hs
        · rw [SetLike.mem_coe, Ideal.mem_comap]
          rw [map_sub, map_mul, subst_last, subst_emb, one_mul, sub_self]
          exact Ideal.zero_mem _
      have := this h
      rwa [Ideal.mem_comap, subst_emb] at this
    · have : Ideal.span ((fun s => last * emb s) '' S ∪ (fun s => emb s - last * emb s) '' T) ≤
          (Ideal.span T).comap (subst 0 : MvPolynomial (Fin (k + 1)) K →ₐ[K] _) := by
        rw [Ideal.span_le]
        rintro x (⟨s, hs, rfl⟩ | ⟨s, hs, rfl⟩)
        · rw [SetLike.mem_coe, Ideal.mem_comap]
          rw [map_mul, subst_last, zero_mul]
          exact Ideal.zero_mem _
        · rw [SetLike.mem_coe, Ideal.mem_comap]
          rw [map_sub, map_mul, subst_last, subst_emb, zero_mul, sub_zero]
          exact Ideal.subset_span hs
      have := this h
      rwa [Ideal.mem_comap, subst_emb] at this
  · rintro ⟨h1, h2⟩
    have k1 := mul_emb_mem (c := last) (J := Ideal.span ((fun s => last * emb s) '' S ∪
      (fun s => emb s - last * emb s) '' T)) (fun s hs => Ideal.subset_span (.inl ⟨s, hs, rfl⟩)) h1
    have k2 := mul_emb_mem (c := 1 - last) (J := Ideal.span ((fun s => last * emb s) '' S ∪
      (fun s => emb s - last * emb s) '' T))
      (fun s hs => Ideal.subset_span (.inr ⟨s, hs, by rw [sub_mul, one_mul]⟩)) h2
    have e : emb g = last * emb g + (1 - last) * emb g := by ring
    rw [e]
    exact Ideal.add_mem _ k1 k2

end ExtraVar
end Verif
