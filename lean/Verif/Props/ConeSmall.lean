import Verif.Props.ElimBound
import Verif.Props.ConeOrder
import Verif.Proofs.Closed

/-!
# Property C179: cones of small rational generators do not overflow
-/

namespace Verif
open Res LinAlg LawfulRField Matrix

namespace Rational

section
local instance : RField Rational := field .debug
local instance : StabilityCmp Rational := stability .debug
local instance : FieldOrd Rational := fieldOrd .debug
local instance : LawfulRField Rational ℚ := lawful
local instance : LawfulPivot Rational ℚ := lawfulPivot
local instance : LawfulOrd Rational ℚ := lawfulOrd

theorem each_of_over {M : Mat Rational} {n m : ℕ} {P : Rational → Prop} (h : M.Shape n m)
    (hP : Mat.Over P M) : M.Each n m (fun _ _ => P) := by
  refine ⟨_, h.has, fun i j hi hj => hP _ ?_⟩
  exact List.mem_of_getElem? (h.has.entry i j hi hj)

theorem over_of_each {M : Mat Rational} {n m : ℕ} {P : Rational → Prop}
    (h : M.Each n m (fun _ _ => P)) : Mat.Over P M := by
  obtain ⟨a, h1, h2⟩ := h
  intro x hx
  obtain ⟨k, hk, rfl⟩ := List.mem_iff_getElem.mp hx
  rw [h1.len] at hk
  have hm : 0 < m := by
    rcases Nat.eq_zero_or_pos m with h | h
    · subst h; omega
    · exact h
  have e := h1.entry (k / m) (k % m) (Nat.div_lt_of_lt_mul (by rwa [mul_comm])) (Nat.mod_lt _ hm)
  rw [Nat.div_add_mod', List.getElem?_eq_getElem (by rw [h1.len]; exact hk)] at e
  rw [Option.some.inj e]
  exact h2 _ _ (Nat.div_lt_of_lt_mul (by rwa [mul_comm])) (Nat.mod_lt _ hm)

/-- The conditions on the bounds under which the reduced form of a matrix with `n` rows and `m` columns
and its kernel are computed, with entries of the kernel vectors up to `R`. -/
structure Fits (p q n m R : ℕ) : Prop where
  echelon : rowBound p q (min (n - 1) m) + 1 < 2 ^ 63
  rref : ∀ i, i < min n m → rrefBound (rowBound p q) (min n m) (min n m - 1) i ≤ R
  pos : 0 < R
  lt : R < 2 ^ 63

/-- Reduced form, rank and kernel of a small matrix. -/
theorem rref_small {M : Mat Rational} {n m p q R : ℕ} {A : Matrix (Fin n) (Fin m) ℚ} (hp : 0 < p) (hq : 0 < q)
    (hM : M.Represents A) (hs : Mat.Over (Size p q) M) (hn : n * n < 18446744073709551616)
    (hR : Fits p q n m R) :
    ∃ form f r ks, M.rowEchelon = .ok form ∧ form.toRref = .ok f ∧ f.rank = .ok r ∧ r = A.rank ∧
      f.computeKernel = .ok ks ∧ (∀ v ∈ ks, v.Each m 1 (fun _ _ => Size R R)) ∧
      ∃ v : Fin ks.length → Fin m → ℚ, (∀ i, (ks.get i).RepresentsVec (v i)) ∧
          LinearIndependent ℚ v ∧ Submodule.span ℚ (Set.range v) = LinearMap.ker A.mulVecLin := by
  have hsh : M.Shape n m := { hM with }
  obtain ⟨form, hform, -, hp', hb'⟩ := (Mat.rowEchelon_sized sizes hp hq hR.echelon hn
    (each_of_over hsh hs)).total
  obtain ⟨b, k, piv, hf, he⟩ := (hM.is.rowEchelon hn).of_ok hform
  have hkm : k ≤ m := by
    have hmono : ∀ i, i < k → i ≤ piv i := by
      intro i
      induction i with
      | zero => intro _; omega
      | succ i ih => intro hi; have := he.mono i (i + 1) (by omega) hi; have := ih (by omega); omega
    rcases Nat.eq_zero_or_pos k with h | h
    · omega
    · have h1 := hmono (k - 1) (by omega)
      have h2 := he.lt (k - 1) (by omega)
      omega
  have hkn := he.le
  have hzero : ∀ {f : Form Rational} {b : ℕ → ℕ → ℚ}, f.b.Is n m b → Ech n m k piv b →
      ∀ r, min n m ≤ r → r < n → f.b.firstNonzero r = .ok none := by
    intro f b hb he r hr hrn
    have hsh : f.b.Shape n m := { hb with }
    obtain ⟨o, ho, -⟩ := (hsh.has.firstNonzero_of (E := fun _ => False) sizes.eps hrn).total
    have := (hb.firstNonzero_ech he hrn).of_ok ho
    rw [if_neg (by omega)] at this
    rw [ho, this]
  obtain ⟨f, hf', -, hp'', hb''⟩ := (Form.toRrefLow_sized sizes (rowBound_pos hp hq) (Nat.min_le_left n m)
    (hzero hf.b_is he) (fun i hi => lt_of_le_of_lt (hR.rref i hi) hR.lt) hp' hb').total
  obtain ⟨b', hf1, he1⟩ := (hf.toRref he).of_ok hf'
  have hrr := rref_rank_kernel M A hM hn
  unfold rref at hrr
  rw [hform, bind_ok, hf'] at hrr
  obtain ⟨r, hr, -⟩ := (Form.rank_sized sizes hb''.shape).total
  obtain ⟨ks, hks, hks'⟩ := (Form.computeKernelLow_sized sizes (hzero hf1.b_is he1.toEch) hR.rref hR.pos hR.lt
    hb'').total
  exact ⟨form, f, r, ks, hform, hf', hr, hrr.1.of_ok hr, hks, hks', hrr.2.of_ok hks⟩

theorem partialCmp_small {p q : ℕ} {x : Rational} (hx : Size p q x) (hp : p < 2 ^ 63) :
    Spec (fun _ => False) (FieldOrd.partialCmp x (RField.zero : Rational)) (fun _ => True) := by
  have h1 := hx.numer
  change Spec _ (Rational.partialCmp .debug x ZERO) _
  unfold partialCmp cmp Integer.mul
  rw [show x.numer * ZERO.denom = x.numer from mul_one _, show ZERO.numer * x.denom = 0 from zero_mul _,
    I64.norm_eq (inRange_of_natAbs (by omega)), bind_ok, I64.norm_eq (inRange_of_natAbs (by omega)), bind_ok]
  trivial

/-- The conditions under which the products with the normals are computed. -/
structure DotFits (p q m R : ℕ) : Prop where
  numer : (dotBound p q R R m).1 < 2 ^ 63
  denom : (dotBound p q R R m).2 < 2 ^ 63

theorem allAbove_small {m p q R : ℕ} (hq : 0 < q) (hR : 0 < R) (hd : DotFits p q m R) {normal : Mat Rational}
    (hn : Mat.Over (Size R R) normal) (gs : List (Mat Rational))
    (hg : ∀ g ∈ gs, Mat.Over (Size p q) g ∧ g.entries.length = m) :
    Spec (fun _ => False) (Cone.allAbove normal gs) (fun _ => True) := by
  induction gs with
  | nil => trivial
  | cons g gs ih =>
    unfold Cone.allAbove
    have hg0 := hg g (by simp)
    refine (Mat.dot_sized sizes hq hR hg0.1 hn hg0.2.le hd.numer hd.denom).bind fun d hd' => ?_
    refine (partialCmp_small hd' hd.numer).bind fun o _ => ?_
    rcases o with _ | _ | _ | _
    · trivial
    · trivial
    · exact ih fun g hg' => hg g (by simp [hg'])
    · exact ih fun g hg' => hg g (by simp [hg'])

theorem scale_small {R : ℕ} (hRL : R < 2 ^ 63) (hR : 0 < R) {N : Mat Rational} {s : Rational}
    (hN : Mat.Over (Size R R) N) (hs : Size 1 1 s) :
    Spec (fun _ => False) (N.scale s) (Mat.Over (Size R R)) := by
  unfold Mat.scale
  refine (mapM_spec (P := fun _ y => Size R R y) fun x hx => ?_).bind fun l hl => ?_
  · have := sizes.mul (hN x hx) hs (by omega) (by omega)
    rw [mul_one] at this
    exact this
  · intro y hy
    obtain ⟨i, hi⟩ := List.getElem?_of_mem hy
    rw [List.forall₂_iff_get] at hl
    obtain ⟨hi', rfl⟩ := List.getElem?_eq_some_iff.mp hi
    exact hl.2 i (by rw [hl.1]; exact hi') hi'

theorem facetOf_small {m k p q R : ℕ} (hp : 0 < p) (hq : 0 < q) (gs : List (Mat Rational))
    (v : Fin gs.length → Fin m → ℚ) (hg : Generators gs v)
    (hsz : ∀ g ∈ gs, Mat.Over (Size p q) g) (h0 : 0 < gs.length)
    (hk0 : k ≠ 0) (hkm : k < m) (hR : Fits p q k m R) (hd : DotFits p q m R)
    (sub : List (Mat Rational)) (hk : sub.length = k) (hsub : sub.Sublist gs) :
    Spec (fun _ => False) (Cone.facetOf gs k sub) (fun _ => True) := by
  obtain ⟨s, hs⟩ := List.sublist_iff_exists_fin_orderEmbedding_get_eq.1 hsub
  have hle : sub.length ≤ gs.length := hsub.length_le
  have hne : sub ≠ [] := by rintro rfl; exact hk0 hk.symm
  have hlt : gs.length < 18446744073709551616 := lt_of_le_of_lt (Nat.le_mul_self _) hg.small
  have hrep : ∀ i, (sub.get i).RepresentsVec (v (s i)) := fun i => by rw [hs]; exact hg.repr _
  have hlen : ∀ g ∈ gs, Mat.Over (Size p q) g ∧ g.entries.length = m := by
    intro g hgm
    obtain ⟨i, rfl⟩ := List.get_of_mem hgm
    exact ⟨hsz _ hgm, (hg.repr i).len.trans (mul_one _)⟩
  unfold Cone.facetOf
  obtain ⟨sm, hsm, hsm'⟩ := (C51_from_row_vectors m sub _ hne hrep (by omega)
    (lt_of_le_of_lt (Nat.mul_le_mul_right _ hle) hg.small')).total
  have hover := Mat.over_fromRowVectors (fun g hgm => hsz g (hsub.subset hgm)) _ hsm
  subst hk
  obtain ⟨form, f, r, ks, h1, h2, h3, h4, h5, h6, u, hu, huli, hspan⟩ := rref_small hp hq hsm' hover
    (lt_of_le_of_lt (Nat.mul_le_mul hle hle) hg.small) hR
  rw [hsm, bind_ok, h1, bind_ok, h2, bind_ok, h3, bind_ok]
  split
  · trivial
  rename_i hrk
  have hrk : r = sub.length := by simpa using hrk
  have hdim : ks.length + sub.length = m := by
    have e1 := finrank_span_eq_card huli
    rw [hspan] at e1
    have e2 := finrank_ker (Matrix.of fun i => v (s i))
    simp only [Fintype.card_fin] at e1
    omega
  have hpos : 0 < ks.length := by omega
  rw [h5, bind_ok]
  rw [show Mat.nth ks 0 = .ok ks[0] by unfold Mat.nth; rw [List.getElem?_eq_getElem hpos], bind_ok,
    show Mat.nth gs 0 = .ok gs[0] by unfold Mat.nth; rw [List.getElem?_eq_getElem h0], bind_ok]
  have hn := over_of_each (h6 ks[0] (List.getElem_mem hpos))
  have hg0 := hlen gs[0] (List.getElem_mem h0)
  refine (Mat.dot_sized sizes hq hR.pos hg0.1 hn hg0.2.le hd.numer hd.denom).bind fun d hd' => ?_
  refine (partialCmp_small hd' hd.numer).bind fun o _ => ?_
  rcases o with _ | o
  · trivial
  dsimp only
  have hrest : ∀ nrm, Mat.Over (Size R R) nrm → Spec (fun _ => False) (do
      if ← Cone.allAbove nrm gs then pure (some (⟨nrm, sub⟩ : Face Rational)) else pure none)
      (fun _ => True) := by
    intro nrm hnrm
    refine (allAbove_small hq hR.pos hd hnrm gs hlen).bind fun b _ => ?_
    cases b <;> trivial
  cases o
  · refine (sizes.neg sizes.one (by norm_num) (by norm_num)).bind fun y hy => ?_
    exact (scale_small hR.lt hR.pos hn hy).bind hrest
  · exact hrest _ hn
  · exact hrest _ hn

/-- `Cone::new` of small generators. -/
theorem cone_small {m p q : ℕ} {R : ℕ → ℕ} (hp : 0 < p) (hq : 0 < q) (gs : List (Mat Rational))
    (v : Fin gs.length → Fin m → ℚ) (hg : Generators gs v)
    (hsz : ∀ g ∈ gs, Mat.Over (Size p q) g) (hr : 2 ≤ Module.finrank ℚ (Submodule.span ℚ (Set.range v)))
    (hR : ∃ R', Fits p q gs.length m R')
    (hd : ∀ k, k ≠ 0 → k < m → Fits p q k m (R k) ∧ DotFits p q m (R k)) :
    Spec (fun _ => False) (Cone.new gs) (fun _ => True) := by
  have hrank : (Matrix.of v).rank = Module.finrank ℚ (Submodule.span ℚ (Set.range v)) :=
    Matrix.rank_eq_finrank_span_row _
  have hrn : (Matrix.of v).rank ≤ gs.length := by simpa using (Matrix.of v).rank_le_height
  have hrm : (Matrix.of v).rank ≤ m := (Matrix.of v).rank_le_width
  have h0 : 0 < gs.length := by omega
  have hlt : gs.length < 18446744073709551616 := lt_of_le_of_lt (Nat.le_mul_self _) hg.small
  have hsmall : gs.length < 1152921504606846976 := by
    by_contra h
    have : 1152921504606846976 * 1152921504606846976 ≤ gs.length * gs.length :=
      Nat.mul_le_mul (by omega) (by omega)
    have := hg.small
    omega
  obtain ⟨R', hR'⟩ := hR
  unfold Cone.new
  rw [show Mat.nth gs 0 = .ok gs[0] by unfold Mat.nth; rw [List.getElem?_eq_getElem h0], bind_ok]
  obtain ⟨gm, hgm, hgm'⟩ := (C51_from_row_vectors m gs v (List.ne_nil_of_length_pos h0) hg.repr hlt
    hg.small').total
  have hover := Mat.over_fromRowVectors hsz _ hgm
  obtain ⟨form, f, r, ks, h1, h2, h3, h4, h5, -⟩ := rref_small hp hq hgm' hover hg.small hR'
  rw [hgm, bind_ok, h1, bind_ok, h2, bind_ok, h3, bind_ok, h5, bind_ok]
  rw [show Usize.sub (RField.build Rational) r 1 = .ok (r - 1) by
    unfold Usize.sub; rw [if_pos (by omega)], bind_ok]
  rw [show combinations gs (r - 1) = .ok (combinationsList (r - 1) gs) by
    unfold combinations; rw [if_neg (by omega)], bind_ok]
  refine Spec.bind (P := fun _ => True) ?_ fun _ _ => trivial
  refine foldlM_spec (fun _ _ => True) trivial ?_
  rintro done sub rest facets heq -
  obtain ⟨hsl, hlen⟩ := mem_combinationsList.1 (heq ▸ (by simp) : sub ∈ combinationsList (r - 1) gs)
  have hk := hd (r - 1) (by omega) (by omega)
  refine (facetOf_small hp hq gs v hg hsz h0 (by omega) (by omega) hk.1 hk.2 sub hlen hsl).bind fun o _ => ?_
  cases o <;> trivial

theorem Bounded.over {M : Mat Rational} {n m p q : ℕ} (h : Bounded M n m p q) : Mat.Over (Size p q) M :=
  over_of_each h.each

/-- **C179.** If the recursions for the bounds (`Fits`: the echelon form, the reduced form and the kernel;
`DotFits`: the products with a normal) stay below `2^63` for the matrix of all generators and for
fewer than `m` of them, `Cone::new` returns, the same in both builds, for all generators
that do not lie on a line. -/
theorem C179_cone {m p q : ℕ} {R : ℕ → ℕ} (hp : 0 < p) (hq : 0 < q) (gs : List (Mat Rational))
    (v : Fin gs.length → Fin m → ℚ) (hg : Generators gs v) (hsz : ∀ g ∈ gs, Bounded g m 1 p q)
    (hr : 2 ≤ Module.finrank ℚ (Submodule.span ℚ (Set.range v))) (hR : ∃ R', Fits p q gs.length m R')
    (hd : ∀ k, k ≠ 0 → k < m → Fits p q k m (R k) ∧ DotFits p q m (R k)) :
    ∃ c, @Cone.new _ (field .debug) _ (stability .debug) (fieldOrd .debug) gs = .ok c ∧
      @Cone.new _ (field .release) _ (stability .release) (fieldOrd .release) gs = .ok c := by
  obtain ⟨c, hc, -⟩ := (cone_small hp hq gs v hg (fun g hgm => (hsz g hgm).over) hr hR hd).total
  exact ⟨c, hc, C76_cone gs c hc⟩

theorem Fits.planar (N : ℕ) : Fits 41 1 N 2 (2 ^ 62) := by
  refine ⟨lt_of_le_of_lt (Nat.succ_le_succ (rowBound_mono (by norm_num) one_pos (Nat.min_le_right _ _)))
    (by decide), fun i hi => ?_, by norm_num, by norm_num⟩
  rcases (by omega : min N 2 = 0 ∨ min N 2 = 1 ∨ min N 2 = 2) with h | h | h <;> rw [h] at hi ⊢ <;>
    interval_cases i <;> decide

theorem Fits.space (N : ℕ) : Fits 2 1 N 3 (2 ^ 62) := by
  refine ⟨lt_of_le_of_lt (Nat.succ_le_succ (rowBound_mono (by norm_num) one_pos (Nat.min_le_right _ _)))
    (by decide), fun i hi => ?_, by norm_num, by norm_num⟩
  rcases (by omega : min N 3 = 0 ∨ min N 3 = 1 ∨ min N 3 = 2 ∨ min N 3 = 3) with h | h | h | h <;>
    rw [h] at hi ⊢ <;> interval_cases i <;> decide

/-- **C179 for integer generators.** `Cone::new` returns, the same in both builds, for any number of
generators in the plane with integer coordinates up to 41, and in space with integer coordinates up to 2,
that do not lie on a line. -/
theorem C179_integers {m p : ℕ} (h : m = 2 ∧ p = 41 ∨ m = 3 ∧ p = 2) (gs : List (Mat Rational))
    (v : Fin gs.length → Fin m → ℚ) (hg : Generators gs v) (hsz : ∀ g ∈ gs, Bounded g m 1 p 1)
    (hr : 2 ≤ Module.finrank ℚ (Submodule.span ℚ (Set.range v))) :
    ∃ c, @Cone.new _ (field .debug) _ (stability .debug) (fieldOrd .debug) gs = .ok c ∧
      @Cone.new _ (field .release) _ (stability .release) (fieldOrd .release) gs = .ok c := by
  rcases h with ⟨rfl, rfl⟩ | ⟨rfl, rfl⟩
  · refine C179_cone (R := fun _ => 41) (by norm_num) one_pos gs v hg hsz hr ⟨_, Fits.planar _⟩
      fun k hk0 hk => ?_
    have : k = 1 := by omega
    subst this
    exact ⟨⟨by decide, by decide, by decide, by decide⟩, by decide, by decide⟩
  · refine C179_cone (R := fun _ => 128) (by norm_num) one_pos gs v hg hsz hr ⟨_, Fits.space _⟩
      fun k hk0 hk => ?_
    have : k = 1 ∨ k = 2 := by omega
    rcases this with rfl | rfl
    · exact ⟨⟨by decide, by decide, by decide, by decide⟩, by decide, by decide⟩
    · exact ⟨⟨by decide, by decide, by decide, by decide⟩, by decide, by decide⟩

/-- **C179.** For larger generators `Cone::new` overflows. -/
theorem C179_limit : @Cone.new _ (field .debug) _ (stability .debug) (fieldOrd .debug)
    [ratMat 2 1 [97027, 3528], ratMat 2 1 [71886, 49450], ratMat 2 1 [86659, -61466],
      ratMat 2 1 [93758, 92826]] = .panic .overflowI64 := by decide +kernel

theorem ratMat_vec (x y : ℤ) : (ratMat 2 1 [x, y]).RepresentsVec ![(x : ℚ), y] := by
  have := ratMat_represents 2 1 [x, y] rfl (by norm_num) (by norm_num) (by simp)
  refine { this with entry := fun i j => ?_ }
  obtain ⟨z, h1, h2, h3⟩ := this.entry i j
  refine ⟨z, h1, h2, h3.trans ?_⟩
  have : j = 0 := Subsingleton.elim _ _
  subst this
  fin_cases i <;> rfl

theorem ratMat_bounded {x y : ℤ} {p : ℕ} (hx : |x| ≤ p) (hy : |y| ≤ p) : Bounded (ratMat 2 1 [x, y]) 2 1 p 1 := by
  refine ⟨fun i _ => ⟨[x, y].getD i 0, 1⟩, ⟨rfl, rfl, rfl, by norm_num, by norm_num, by norm_num,
    fun i j hi hj => ?_⟩, fun i j hi hj => ?_⟩
  · interval_cases j; interval_cases i <;> rfl
  · interval_cases j
    interval_cases i
    · exact ⟨⟨Int.one_pos, fun _ => rfl⟩, hx, le_rfl⟩
    · exact ⟨⟨Int.one_pos, fun _ => rfl⟩, hy, le_rfl⟩

/-- The hypotheses hold for `(41, 7)`, `(-3, 40)` and `(20, -41)`. -/
example : ∃ (gs : List (Mat Rational)) (v : Fin gs.length → Fin 2 → ℚ), gs.length = 3 ∧ Generators gs v ∧
    (∀ g ∈ gs, Bounded g 2 1 41 1) ∧ 2 ≤ Module.finrank ℚ (Submodule.span ℚ (Set.range v)) := by
  let v : Fin 3 → Fin 2 → ℚ := ![![((41 : ℤ) : ℚ), ((7 : ℤ) : ℚ)], ![((-3 : ℤ) : ℚ), ((40 : ℤ) : ℚ)],
    ![((20 : ℤ) : ℚ), ((-41 : ℤ) : ℚ)]]
  refine ⟨[ratMat 2 1 [41, 7], ratMat 2 1 [-3, 40], ratMat 2 1 [20, -41]], v, rfl,
    ⟨fun i => ?_, by decide, by decide⟩, fun g hg => ?_, ?_⟩
  · fin_cases i <;> exact ratMat_vec _ _
  · simp only [List.mem_cons, List.not_mem_nil, or_false] at hg
    rcases hg with rfl | rfl | rfl <;> exact ratMat_bounded (by decide) (by decide)
  · have hli : LinearIndependent ℚ ![v 0, v 1] := by
      rw [LinearIndependent.pair_iff]
      intro s t h
      have h0 := congrFun h 0
      have h1 := congrFun h 1
      simp [v] at h0 h1
      constructor <;> linarith
    calc 2 = Module.finrank ℚ (Submodule.span ℚ (Set.range ![v 0, v 1])) := by
          rw [finrank_span_eq_card hli]; rfl
      _ ≤ _ := Submodule.finrank_mono (Submodule.span_mono (by
          rintro _ ⟨i, rfl⟩
          fin_cases i
          · exact ⟨0, rfl⟩
          · exact ⟨1, rfl⟩))

end

end Rational
end Verif
