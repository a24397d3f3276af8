import Verif.Proofs.Relate
import Verif.Proofs.Ord
import Verif.Proofs.Run

/-!
# Property C198: renaming the variables

Permuting the variables of all arguments permutes those of the results, exactly: the outcomes are the same,
including panics and runs that do not end, over every coefficient type.  `Lex` and `RevLex` change places
when the variables are reversed.
-/

namespace Verif
open Res Computer

namespace MDeg

/-- The multidegree with the exponent of `i` at `σ i`. -/
def permute {n : ℕ} (σ : Equiv.Perm (Fin n)) (m : MDeg) : MDeg :=
  fromVec (List.ofFn fun i => m.deg (σ.symm i))

/-- A canonical multidegree in the first `n` variables. -/
def InFirst (n : ℕ) (m : MDeg) : Prop := m.Clean ∧ m.length ≤ n

instance (n : ℕ) (m : MDeg) : Decidable (InFirst n m) := inferInstanceAs (Decidable (_ ∧ _))

variable {n : ℕ} (σ : Equiv.Perm (Fin n))

theorem deg_ofFn (f : Fin n → ℕ) (i : ℕ) :
    deg (List.ofFn f) i = if h : i < n then f ⟨i, h⟩ else 0 := by
  unfold deg
  split
  · rename_i h
    rw [List.getD_eq_getElem _ _ (by simpa using h), List.getElem_ofFn]
  · rename_i h
    exact deg_of_length_le (by simpa using h)

theorem deg_permute (m : MDeg) (i : ℕ) :
    (permute σ m).deg i = if h : i < n then m.deg (σ.symm ⟨i, h⟩) else 0 := by
  unfold permute
  rw [deg_fromVec, deg_ofFn]

theorem permute_inFirst {m : MDeg} (h : m.InFirst n) : (permute σ m).InFirst n := by
  have hc : (permute σ m).Clean := fromVec_clean fun d hd => by
    obtain ⟨i, rfl⟩ := List.mem_ofFn.mp hd
    exact deg_lt h.1.lt _
  refine ⟨hc, (length_le_iff hc.last n).mpr fun i hi => ?_⟩
  rw [deg_permute, dif_neg (by omega)]

/-- The exponents of the permuted multidegree. -/
theorem C198_permute (m : MDeg) (i : Fin n) : (permute σ m).deg (σ i) = m.deg i := by
  rw [deg_permute, dif_pos (σ i).2]
  simp

theorem forall_deg {P : ℕ → ℕ → Prop} (h0 : P 0 0) {a b : MDeg} (ha : a.InFirst n) (hb : b.InFirst n) :
    (∀ i, P (deg a i) (deg b i)) ↔ ∀ i, P (deg (permute σ a) i) (deg (permute σ b) i) := by
  constructor
  · intro h i
    rw [deg_permute, deg_permute]
    split
    · exact h _
    · exact h0
  · intro h i
    by_cases hi : i < n
    · have := h (σ ⟨i, hi⟩)
      rwa [C198_permute, C198_permute] at this
    · rw [(length_le_iff ha.1.last n).mp ha.2 i (by omega), (length_le_iff hb.1.last n).mp hb.2 i (by omega)]
      exact h0

/-- A canonical multidegree with the exponents of the permuted one is the permuted one. -/
theorem eq_permute {c d : MDeg} (hc : c.InFirst n) (hd : d.Clean)
    (h : ∀ i, deg d i = if h : i < n then deg c (σ.symm ⟨i, h⟩) else 0) : d = permute σ c :=
  ext_deg hd.last (permute_inFirst σ hc).1.last fun i => by rw [h, deg_permute]

/-- `m'` is `m` permuted. -/
def Permuted (σ : Equiv.Perm (Fin n)) (m m' : MDeg) : Prop := m.InFirst n ∧ m' = permute σ m

theorem permuted_rel : MDegRel .debug (Permuted σ) := by
  refine ⟨⟨⟨zero_clean, by simp [zero]⟩, ?_⟩, ?_, ?_, ?_, ?_, ?_⟩
  · exact eq_permute σ ⟨zero_clean, by simp [zero]⟩ zero_clean fun i => by simp [zero]
  · rintro m _ k _ ⟨hm, rfl⟩ ⟨hk, rfl⟩
    refine ⟨congrArg _, fun h => ext_deg hm.1.last hk.1.last ?_⟩
    exact (forall_deg σ (P := (· = ·)) rfl hm hk).mpr fun i => by rw [h]
  · rintro m _ k _ ⟨hm, rfl⟩ ⟨hk, rfl⟩
    have hm' := permute_inFirst σ hm
    have hk' := permute_inFirst σ hk
    have e := forall_deg σ (P := fun a b => a + b < 256) (by omega) hm hk
    rw [add_eq hm.1.lt hk.1.lt, add_eq hm'.1.lt hk'.1.lt]
    by_cases h : ∀ i, deg m i + deg k i < 256
    swap
    · rw [if_neg h, if_neg (mt e.mpr h)]
      exact (rfl : Panic.overflowU8 = _)
    rw [if_pos h, if_pos (e.mp h)]
    have hc : ∀ {a b : MDeg}, (∀ i, deg a i + deg b i < 256) →
        (fromVec (zipWithLongest (· + ·) a b)).Clean := fun h => fromVec_clean (by
      rw [forall_mem_iff_deg (· < 256) (by omega)]
      intro i; rw [deg_zipWithLongest (by rfl)]; exact h i)
    have hw : (fromVec (zipWithLongest (· + ·) m k)).InFirst n := ⟨hc h, by
      rw [length_le_iff (hc h).last]
      intro i hi
      rw [deg_fromVec, deg_zipWithLongest (by rfl), (length_le_iff hm.1.last n).mp hm.2 i hi,
        (length_le_iff hk.1.last n).mp hk.2 i hi]⟩
    refine ⟨hw, eq_permute σ hw (hc (e.mp h)) fun i => ?_⟩
    rw [deg_fromVec, deg_zipWithLongest (by rfl), deg_permute, deg_permute]
    split
    · rw [deg_fromVec, deg_zipWithLongest (by rfl)]
    · rfl
  · rintro m _ k _ ⟨hm, rfl⟩ ⟨hk, rfl⟩
    have hm' := permute_inFirst σ hm
    have hk' := permute_inFirst σ hk
    have e := forall_deg σ (P := fun a b => b ≤ a) (le_refl 0) hm hk
    have h1 := checkedSub_spec hm.1 hk.1
    have h2 := checkedSub_spec hm'.1 hk'.1
    revert h1 h2
    cases checkedSub m k <;> cases checkedSub (permute σ m) (permute σ k) <;> intro h1 h2
    · trivial
    · obtain ⟨i, hi⟩ := h1
      exact absurd (e.mpr h2.1 i) (by omega)
    · obtain ⟨i, hi⟩ := h2
      exact absurd (e.mp h1.1 i) (by omega)
    · rename_i c d
      have hw : c.InFirst n := ⟨h1.2.1, by
        rw [length_le_iff h1.2.1.last]
        intro i hi
        rw [h1.2.2, (length_le_iff hm.1.last n).mp hm.2 i hi, Nat.zero_sub]⟩
      refine ⟨hw, eq_permute σ hw h2.2.1 fun i => ?_⟩
      rw [h2.2.2, deg_permute, deg_permute]
      split
      · rw [h1.2.2]
      · rfl
  · rintro m _ k _ ⟨hm, rfl⟩ ⟨hk, rfl⟩
    rw [Bool.eq_iff_iff, isSucc_iff hm.1.last, isSucc_iff (permute_inFirst σ hm).1.last]
    exact forall_deg σ (P := (· ≤ ·)) (le_refl 0) hm hk
  · rintro m _ k _ ⟨hm, rfl⟩ ⟨hk, rfl⟩
    have e : ∀ a b : MDeg, lcmMDeg a b = zipWithLongest max a b := by
      intro a b
      unfold lcmMDeg zipWithLongest
      refine List.map_congr_left fun x _ => ?_
      cases x <;> simp
    have hc := zipWithLongest_max_clean hm.1 hk.1
    have hw : (lcmMDeg m k).InFirst n := by
      rw [e]
      refine ⟨hc, ?_⟩
      rw [length_le_iff hc.last]
      intro i hi
      rw [deg_zipWithLongest (by rfl), (length_le_iff hm.1.last n).mp hm.2 i hi,
        (length_le_iff hk.1.last n).mp hk.2 i hi, max_self]
    refine ⟨hw, eq_permute σ hw ?_ fun i => ?_⟩
    · rw [e]
      exact zipWithLongest_max_clean (permute_inFirst σ hm).1 (permute_inFirst σ hk).1
    · rw [e, deg_zipWithLongest (by rfl), deg_permute, deg_permute]
      split
      · rw [e, deg_zipWithLongest (by rfl)]
      · rfl

end MDeg

open MDeg

section
variable {F : Type} {n : ℕ}

/-- The polynomial with the multidegrees changed by `ρ`, its terms in the same places. -/
def Poly.mapDeg (ρ : MDeg → MDeg) (p : Poly F) : Poly F := p.map fun t => ⟨t.coef, ρ t.mdeg⟩

/-- The polynomial with permuted variables. -/
abbrev Poly.permute (σ : Equiv.Perm (Fin n)) (p : Poly F) : Poly F := p.mapDeg (MDeg.permute σ)

/-- A polynomial in the first `n` variables, with canonical multidegrees. -/
def Poly.InFirst (n : ℕ) (p : Poly F) : Prop := ∀ t ∈ p, t.mdeg.InFirst n

instance (n : ℕ) (p : Poly F) : Decidable (p.InFirst n) := inferInstanceAs (Decidable (∀ t ∈ p, _))

/-- `m'` is `ρ m`, for `m` satisfying `P`. -/
def Moved (P : MDeg → Prop) (ρ : MDeg → MDeg) (m m' : MDeg) : Prop := P m ∧ m' = ρ m

variable {P : MDeg → Prop} {ρ : MDeg → MDeg}

theorem prel_mapDeg {p : Poly F} (h : ∀ t ∈ p, P t.mdeg) : PRel (Moved P ρ) p (p.mapDeg ρ) := by
  unfold Poly.mapDeg PRel
  rw [List.forall₂_map_right_iff]
  exact List.forall₂_same.mpr fun t ht => ⟨rfl, h t ht, rfl⟩

theorem TRel.mapDeg {s t : Term F} (h : TRel (Moved P ρ) s t) : t = ⟨s.coef, ρ s.mdeg⟩ := by
  obtain ⟨c, m⟩ := t
  obtain ⟨h1, -, h2⟩ := h
  exact congrArg₂ Term.mk h1.symm h2

theorem PRel.mapDeg {p q : Poly F} (h : PRel (Moved P ρ) p q) : q = p.mapDeg ρ := by
  induction h with
  | nil => rfl
  | cons h _ ih => exact congrArg₂ List.cons h.mapDeg ih

theorem LRel.mapDeg {p q : List (Poly F)} (h : LRel (Moved P ρ) p q) : q = p.map (Poly.mapDeg ρ) := by
  induction h with
  | nil => rfl
  | cons h _ ih => exact congrArg₂ List.cons (PRel.mapDeg h) ih

theorem lrel_mapDeg {gens : List (Poly F)} (h : ∀ g ∈ gens, ∀ t ∈ g, P t.mdeg) :
    LRel (Moved P ρ) gens (gens.map (Poly.mapDeg ρ)) := by
  unfold LRel
  rw [List.forall₂_map_right_iff]
  exact List.forall₂_same.mpr fun g hg => prel_mapDeg (h g hg)

theorem Res.Rel.eq_map {α β : Type} {R : α → β → Prop} {f : α → β} {x : Res α} {y : Res β}
    (h : Rel R x y) (hR : ∀ a b, R a b → b = f a) : y = f <$> x := by
  cases x <;> cases y <;>
    first | exact h.elim | exact congrArg _ (hR _ _ h) | exact congrArg _ (Eq.symm h) | rfl

theorem orel_map {α β : Type} {R : α → β → Prop} {f : α → β} {x : Option α} {y : Option β}
    (h : ORel R x y) (hR : ∀ a b, R a b → b = f a) : y = x.map f := by
  cases x <;> cases y <;> first | exact h.elim | exact congrArg _ (hR _ _ h) | rfl

variable [RField F]

/-- The routines of `Computer` run with `O'` on `ρ` of the arguments as with `O` on the arguments. -/
def SameRuns (O O' : MOrder) (ρ : MDeg → MDeg) (f g : Poly F) (gens : List (Poly F)) : Prop :=
  leadingTerm O' (f.mapDeg ρ) = Option.map (fun t => ⟨t.coef, ρ t.mdeg⟩) <$> leadingTerm O f ∧
  sortTerms O' (f.mapDeg ρ) = Poly.mapDeg ρ <$> sortTerms O f ∧
  divide O' (f.mapDeg ρ) (gens.map (Poly.mapDeg ρ)) =
    Prod.map (Poly.mapDeg ρ) (List.map (Poly.mapDeg ρ)) <$> divide O f gens ∧
  tryReduce O' (f.mapDeg ρ) (g.mapDeg ρ) = Option.map (Poly.mapDeg ρ) <$> tryReduce O f g ∧
  buchbergerCriterion O' (gens.map (Poly.mapDeg ρ)) = buchbergerCriterion O gens ∧
  buchbergerAlgorithm O' (gens.map (Poly.mapDeg ρ)) = List.map (Poly.mapDeg ρ) <$> buchbergerAlgorithm O gens

theorem sameRuns {O O' : MOrder} (hm : MDegRel (RField.build F) (Moved P ρ))
    (ho : ∀ m k : MDeg, P m → P k → O'.cmp (ρ m) (ρ k) = O.cmp m k) {f g : Poly F}
    {gens : List (Poly F)} (hf : ∀ t ∈ f, P t.mdeg) (hg : ∀ t ∈ g, P t.mdeg)
    (hgens : ∀ g ∈ gens, ∀ t ∈ g, P t.mdeg) : SameRuns O O' ρ f g gens := by
  have ho : OrdRel O O' (Moved P ρ) := by
    rintro m _ k _ ⟨hm, rfl⟩ ⟨hk, rfl⟩
    exact (ho m k hm hk).symm
  have hf := prel_mapDeg (ρ := ρ) hf
  have hg := prel_mapDeg (ρ := ρ) hg
  have hgens := lrel_mapDeg (ρ := ρ) hgens
  refine ⟨(leadingTerm_rel ho hf).eq_map fun _ _ h => orel_map h fun _ _ => TRel.mapDeg,
    (sortTerms_rel ho hf).eq_map fun _ _ => PRel.mapDeg,
    (divide_rel ho hm hf hgens).eq_map ?_,
    (tryReduce_rel ho hm hf hg).eq_map fun _ _ h => orel_map h fun _ _ => PRel.mapDeg,
    (buchbergerCriterion_rel ho hm hgens).symm,
    (buchbergerAlgorithm_rel ho hm hgens).eq_map fun _ _ => LRel.mapDeg⟩
  rintro ⟨r, qs⟩ ⟨r', qs'⟩ ⟨h1, h2⟩
  exact congrArg₂ Prod.mk (PRel.mapDeg h1) (LRel.mapDeg h2)

section
variable (σ : Equiv.Perm (Fin n)) (hb : RField.build F = .debug)
include hb

/-- C198 for the operators: permuting the variables commutes with sums, differences, products of polynomials
and quotients by scalars. -/
theorem C198_arithmetic (p q : Poly F) (hp : p.InFirst n) (hq : q.InFirst n) (a : F) :
    Poly.add (p.permute σ) (q.permute σ) = Poly.permute σ <$> Poly.add p q ∧
    Poly.sub (p.permute σ) (q.permute σ) = Poly.permute σ <$> Poly.sub p q ∧
    Poly.mul (p.permute σ) (q.permute σ) = Poly.permute σ <$> Poly.mul p q ∧
    Poly.divCoef (p.permute σ) a = Poly.permute σ <$> Poly.divCoef p a := by
  have hm : MDegRel (RField.build F) (Moved (MDeg.InFirst n) (MDeg.permute σ)) := hb ▸ permuted_rel σ
  have hp : PRel (Moved (MDeg.InFirst n) (MDeg.permute σ)) p _ := prel_mapDeg hp
  have hq : PRel (Moved (MDeg.InFirst n) (MDeg.permute σ)) q _ := prel_mapDeg hq
  exact ⟨(Poly.add_rel hm hp hq).eq_map fun _ _ => PRel.mapDeg,
    (Poly.sub_rel hm hp hq).eq_map fun _ _ => PRel.mapDeg,
    (Poly.mul_rel hm hp hq).eq_map fun _ _ => PRel.mapDeg,
    (Poly.divCoef_rel hm hp a).eq_map fun _ _ => PRel.mapDeg⟩

/-- C198 for the routines of `Computer` with any two orders that correspond under the permutation. -/
theorem C198_routines {O O' : MOrder}
    (ho : ∀ m k : MDeg, m.InFirst n → k.InFirst n → O'.cmp (m.permute σ) (k.permute σ) = O.cmp m k)
    (f g : Poly F) (gens : List (Poly F)) (hf : f.InFirst n) (hg : g.InFirst n)
    (hgens : ∀ g ∈ gens, g.InFirst n) : SameRuns O O' (MDeg.permute σ) f g gens :=
  sameRuns (P := MDeg.InFirst n) (hb ▸ permuted_rel σ) ho hf hg hgens

end
end

/-! ### `Lex` and `RevLex` -/

/-- The reversal of the variables `0`, …, `n - 1`. -/
abbrev reversal (n : ℕ) : Equiv.Perm (Fin n) := Fin.revPerm

theorem deg_reversal {n : ℕ} (m : MDeg) {i : ℕ} (hi : i < n) :
    (m.permute (reversal n)).deg i = m.deg (n - (i + 1)) := by
  rw [deg_permute, dif_pos hi]
  rfl

theorem reversal_reversal {n : ℕ} {m : MDeg} (h : m.InFirst n) :
    (m.permute (reversal n)).permute (reversal n) = m :=
  (eq_permute _ (permute_inFirst _ h) h.1 fun i => by
    split
    · rename_i hi
      show m.deg i = (m.permute (reversal n)).deg (n - (i + 1))
      rw [deg_reversal _ (by omega)]
      congr 1
      omega
    · exact (length_le_iff h.1.last n).mp h.2 i (by omega)).symm

theorem revLexLt_reversal {n : ℕ} {a b : MDeg} (hb : b.InFirst n) (h : LexLt a.deg b.deg) :
    RevLexLt (a.permute (reversal n)).deg (b.permute (reversal n)).deg := by
  obtain ⟨k, h1, h2⟩ := h
  have hk : k < n := by
    by_contra hc
    rw [(length_le_iff hb.1.last n).mp hb.2 k (by omega)] at h2
    omega
  refine ⟨n - (k + 1), fun i hi => ?_, ?_⟩
  · by_cases hin : i < n
    · rw [deg_reversal _ hin, deg_reversal _ hin]
      exact h1 _ (by omega)
    · rw [deg_permute, deg_permute, dif_neg hin, dif_neg hin]
  · rw [deg_reversal _ (by omega), deg_reversal _ (by omega)]
    have : n - (n - (k + 1) + 1) = k := by omega
    rwa [this]

theorem lex_reversal {n : ℕ} {a b : MDeg} (ha : a.InFirst n) (hb : b.InFirst n) :
    MOrder.revLex.cmp (a.permute (reversal n)) (b.permute (reversal n)) = MOrder.lex.cmp a b := by
  refine congrArg Res.ok ?_
  have h1 := lexCmp_spec a b (.inr ha.1.last) (.inr hb.1.last)
  have h2 := revLexCmp_spec _ _ (permute_inFirst (reversal n) ha).1.last
    (permute_inFirst (reversal n) hb).1.last
  refine CmpMeans.unique (n := n) (k := .revLex) (a := a.permute (reversal n))
    (b := b.permute (reversal n)) ?_ ?_
  · revert h2
    cases MOrder.revLexCmp (a.permute (reversal n)) (b.permute (reversal n)) <;> exact id
  · revert h1
    cases MOrder.lexCmp a b <;> intro h
    · exact revLexLt_reversal hb h
    · exact congrArg _ h
    · exact revLexLt_reversal ha h

/-- C198 for the built-in orders: a run with `RevLex` on the reversed variables is the run with `Lex`, and
conversely. -/
theorem C198_lex_revLex {F : Type} [RField F] (hb : RField.build F = .debug) (n : ℕ) (f g : Poly F)
    (gens : List (Poly F)) (hf : f.InFirst n) (hg : g.InFirst n) (hgens : ∀ g ∈ gens, g.InFirst n) :
    SameRuns MOrder.lex MOrder.revLex (MDeg.permute (reversal n)) f g gens ∧
    SameRuns MOrder.revLex MOrder.lex (MDeg.permute (reversal n)) f g gens := by
  refine ⟨C198_routines _ hb (fun _ _ => lex_reversal) f g gens hf hg hgens,
    C198_routines _ hb (fun m k hm hk => ?_) f g gens hf hg hgens⟩
  rw [← lex_reversal (permute_inFirst _ hm) (permute_inFirst _ hk), reversal_reversal hm,
    reversal_reversal hk]

/-! ### Few variables -/

theorem permute_one {n : ℕ} {m : MDeg} (h : m.InFirst n) : m.permute (1 : Equiv.Perm (Fin n)) = m :=
  (eq_permute _ h h.1 fun i => by
    split
    · rfl
    · exact (length_le_iff h.1.last n).mp h.2 i (by omega)).symm

theorem inFirst_rel (n : ℕ) : MDegRel .debug (Moved (MDeg.InFirst n) id) := by
  have h : Moved (MDeg.InFirst n) id = Permuted (1 : Equiv.Perm (Fin n)) := by
    funext m m'
    refine propext (and_congr_right fun hm => ?_)
    rw [permute_one hm]
    rfl
  rw [h]
  exact permuted_rel 1

theorem sum_two {m : MDeg} (h : m.InFirst 2) : m.sum = m.deg 0 + m.deg 1 := by
  obtain ⟨-, h⟩ := h
  match m, h with
  | [], _ => rfl
  | [a], _ => simp [deg]
  | [a, b], _ => simp [deg]

theorem deg_two {m : MDeg} (h : m.InFirst 2) {i : ℕ} (hi : 2 ≤ i) : m.deg i = 0 :=
  (length_le_iff h.1.last 2).mp h.2 i hi

theorem lexLt_two {a b : MDeg} (ha : a.InFirst 2) (hb : b.InFirst 2) (hs : a.sum = b.sum)
    (h : LexLt a.deg b.deg) : RevLexLt b.deg a.deg := by
  rw [sum_two ha, sum_two hb] at hs
  obtain ⟨k, h1, h2⟩ := h
  refine ⟨1, fun i hi => by rw [deg_two ha (by omega), deg_two hb (by omega)], ?_⟩
  match k, h1, h2 with
  | 0, _, h2 => omega
  | 1, h1, h2 => have := h1 0 (by omega); omega
  | k + 2, _, h2 => rw [deg_two hb (by omega)] at h2; omega

theorem two_cmp {a b : MDeg} (ha : a.InFirst 2) (hb : b.InFirst 2) :
    (MOrder.gRevLex .debug).cmp a b = (MOrder.grLex .debug).cmp a b := by
  show (MOrder.grad .debug a b >>= _) = (MOrder.grad .debug a b >>= _)
  unfold MOrder.grad
  rw [MDeg.totalDeg_eq, MDeg.totalDeg_eq]
  split
  · split
    · show (match compare a.sum b.sum with
        | .eq => pure (MOrder.revLexCmp a b).swap
        | o => pure o : Res Ordering) = (match compare a.sum b.sum with
        | .eq => pure (MOrder.lexCmp a b)
        | o => pure o : Res Ordering)
      cases hc : compare a.sum b.sum
      · rfl
      · have hs : a.sum = b.sum := Nat.compare_eq_eq.mp hc
        refine congrArg Res.ok ?_
        have h1 := lexCmp_spec a b (.inr ha.1.last) (.inr hb.1.last)
        have h2 := revLexCmp_spec a b ha.1.last hb.1.last
        refine CmpMeans.unique (n := 2) (k := .revLex) (a := b) (b := a) ?_ ?_
        · revert h2
          cases MOrder.revLexCmp a b <;> first | exact id | exact Eq.symm
        · revert h1
          cases MOrder.lexCmp a b <;> intro h
          · exact lexLt_two ha hb hs h
          · exact h.symm
          · exact lexLt_two hb ha hs.symm h
      · rfl
    · rfl
  · rfl

/-- The routines of `Computer` give the same with both orders. -/
def SameResults {F : Type} [RField F] (O O' : MOrder) (f g : Poly F) (gens : List (Poly F)) : Prop :=
  leadingTerm O' f = leadingTerm O f ∧
  sortTerms O' f = sortTerms O f ∧
  divide O' f gens = divide O f gens ∧
  tryReduce O' f g = tryReduce O f g ∧
  buchbergerCriterion O' gens = buchbergerCriterion O gens ∧
  buchbergerAlgorithm O' gens = buchbergerAlgorithm O gens

theorem sameResults {F : Type} [RField F] (hb : RField.build F = .debug) {n : ℕ} {O O' : MOrder}
    (ho : ∀ m k : MDeg, m.InFirst n → k.InFirst n → O'.cmp m k = O.cmp m k) {f g : Poly F}
    {gens : List (Poly F)} (hf : f.InFirst n) (hg : g.InFirst n) (hgens : ∀ g ∈ gens, g.InFirst n) :
    SameResults O O' f g gens := by
  obtain ⟨h1, h2, h3, h4, h5, h6⟩ :=
    sameRuns (P := MDeg.InFirst n) (ρ := id) (hb ▸ inFirst_rel n) ho hf hg hgens
  have e : (Poly.mapDeg id : Poly F → Poly F) = id := by funext p; exact List.map_id _
  have e' : (fun t : Term F => (⟨t.coef, id t.mdeg⟩ : Term F)) = id := rfl
  rw [e', Option.map_id, id_map] at h1
  rw [e] at h1 h2 h3 h4 h5 h6
  rw [id_map] at h2
  rw [List.map_id_fun, Prod.map_id, id_map] at h3
  rw [Option.map_id, id_map] at h4
  rw [List.map_id_fun] at h5
  rw [List.map_id_fun, id_map] at h6
  exact ⟨h1, h2, h3, h4, h5, h6⟩

/-- C198 in two variables: `GrLex` and `GRevLex` are the same order, and everything computed with one is what
is computed with the other. -/
theorem C198_two_variables {F : Type} [RField F] (hb : RField.build F = .debug) (f g : Poly F)
    (gens : List (Poly F)) (hf : f.InFirst 2) (hg : g.InFirst 2) (hgens : ∀ g ∈ gens, g.InFirst 2) :
    SameResults (MOrder.grLex .debug) (MOrder.gRevLex .debug) f g gens :=
  sameResults hb (fun _ _ => two_cmp) hf hg hgens

theorem one_cmp (k : OrdKind) {a b : MDeg} (ha : a.InFirst 1) (hb : b.InFirst 1) :
    (k.order .debug).cmp a b = MOrder.lex.cmp a b := by
  have h : ∀ m : MDeg, m.InFirst 1 → m = [] ∨ ∃ x, m = [x] ∧ 0 < x ∧ x < 256 := by
    rintro m ⟨hc, hl⟩
    match m, hl with
    | [], _ => exact .inl rfl
    | [x], _ =>
      exact .inr ⟨x, rfl, Nat.pos_of_ne_zero fun h => hc.last (by rw [h]; rfl), hc.lt x (by simp)⟩
  have hg : ∀ a b : MDeg, a.sum < 256 → b.sum < 256 →
      MOrder.grad .debug a b = .ok (compare a.sum b.sum) := by
    intro a b ha hb
    unfold MOrder.grad
    rw [MDeg.totalDeg_eq, MDeg.totalDeg_eq, if_pos ha, if_pos hb]
    rfl
  rcases h a ha with rfl | ⟨x, rfl, hx, hx'⟩ <;> rcases h b hb with rfl | ⟨y, rfl, hy, hy'⟩
  · cases k <;> rfl
  · have e : compare 0 y = .lt := Nat.compare_eq_lt.mpr hy
    have := hg [] [y] (by simp) (by simpa using hy')
    cases k <;> simp [OrdKind.order, MOrder.grLex, MOrder.gRevLex, MOrder.lex, MOrder.revLex, this, e,
      MOrder.lexCmp, MOrder.revLexCmp, MDeg.len] <;> rfl
  · have e : compare x 0 = .gt := Nat.compare_eq_gt.mpr hx
    have := hg [x] [] (by simpa using hx') (by simp)
    cases k <;> simp [OrdKind.order, MOrder.grLex, MOrder.gRevLex, MOrder.lex, MOrder.revLex, this, e,
      MOrder.lexCmp, MOrder.revLexCmp, MDeg.len] <;> rfl
  · have := hg [x] [y] (by simpa using hx') (by simpa using hy')
    cases hc : compare x y <;> cases k <;>
      simp [OrdKind.order, MOrder.grLex, MOrder.gRevLex, MOrder.lex, MOrder.revLex, this, hc,
        MOrder.lexCmp, MOrder.revLexCmp, MDeg.len, MOrder.firstDiff]

/-- C198 in one variable: all four orders are the same. -/
theorem C198_one_variable {F : Type} [RField F] (hb : RField.build F = .debug) (k k' : OrdKind)
    (f g : Poly F) (gens : List (Poly F)) (hf : f.InFirst 1) (hg : g.InFirst 1)
    (hgens : ∀ g ∈ gens, g.InFirst 1) : SameResults (k.order .debug) (k'.order .debug) f g gens :=
  sameResults hb (fun _ _ hm hl => (one_cmp k' hm hl).trans (one_cmp k hm hl).symm) hf hg hgens

/-! ### Examples -/

/-- `x² y + 3 z` and its reversal `y z² + 3 x`. -/
def rnP : Poly Rational := [⟨⟨1, 1⟩, [2, 1]⟩, ⟨⟨3, 1⟩, [0, 0, 1]⟩]

def rnQ : Poly Rational := [⟨⟨1, 1⟩, [1]⟩, ⟨⟨-1, 1⟩, [0, 1]⟩]

/-- The hypotheses hold, for three variables and for two. -/
example : rnP.InFirst 3 ∧ rnQ.InFirst 3 ∧ ¬ rnP.InFirst 2 ∧ rnQ.InFirst 2 := by decide +kernel

example : rnP.permute (reversal 3) = [⟨⟨1, 1⟩, [0, 1, 2]⟩, ⟨⟨3, 1⟩, [1]⟩] := by decide +kernel

/-- `x² y + 3 z` divided by `x − y` with `Lex`, and `y z² + 3 x` by `z − y` with `RevLex`. -/
example : letI := Rational.field .debug
    divide (F := Rational) MOrder.lex rnP [rnQ] =
      .ok ([⟨⟨1, 1⟩, [0, 3]⟩, ⟨⟨3, 1⟩, [0, 0, 1]⟩], [[⟨⟨1, 1⟩, [1, 1]⟩, ⟨⟨1, 1⟩, [0, 2]⟩]]) ∧
    divide (F := Rational) MOrder.revLex (rnP.permute (reversal 3)) [rnQ.permute (reversal 3)] =
      .ok ([⟨⟨1, 1⟩, [0, 3]⟩, ⟨⟨3, 1⟩, [1]⟩], [[⟨⟨1, 1⟩, [0, 1, 1]⟩, ⟨⟨1, 1⟩, [0, 2]⟩]]) := by
  let _ := Rational.field .debug
  exact ⟨(divideN_approx 20 _ _).eq (by decide +kernel) (by simp),
    (divideN_approx 20 _ _).eq (by decide +kernel) (by simp)⟩

/-- In two variables `Lex` is another order than `RevLex`, and in three `GrLex` another than `GRevLex`. -/
example : letI := Rational.field .debug
    leadingTerm (F := Rational) MOrder.lex rnQ ≠ leadingTerm MOrder.revLex rnQ ∧
    leadingTerm (F := Rational) (MOrder.grLex .debug) [⟨⟨1, 1⟩, [1, 0, 1]⟩, ⟨⟨1, 1⟩, [0, 2]⟩] ≠
      leadingTerm (MOrder.gRevLex .debug) [⟨⟨1, 1⟩, [1, 0, 1]⟩, ⟨⟨1, 1⟩, [0, 2]⟩] := by
  decide +kernel

end Verif
