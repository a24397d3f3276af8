import Verif.Props.TermOrder
import Verif.Props.F64Poly
import Verif.Props.F64Exact
import Verif.Props.Mat
import Verif.Proofs.Shape

/-!
# C192: commuted operands, also where the arithmetic is inexact or fails

No other law of the coefficient type is used than that its sums and products of two elements commute.
-/

set_option linter.unusedSectionVars false

namespace Verif
open Res LinAlg

/-- Sums and products of two coefficients do not depend on the order of the operands, whether they return
or panic. -/
class Commutes (F : Type) [RField F] : Prop where
  add : ∀ x y : F, RField.add x y = RField.add y x
  mul : ∀ x y : F, RField.mul x y = RField.mul y x

/-- C192. `x + y` and `y + x`, and `x * y` and `y * x`, are the same rational in the same representation, or
both panic with the same panic; and `x.cmp(&y)` is the reverse of `y.cmp(&x)`. -/
theorem C192_rational (b : Build) (x y : Rational) :
    Rational.add b x y = Rational.add b y x ∧ Rational.mul b x y = Rational.mul b y x ∧
    (Ordering.swap <$> Rational.cmp b x y) = Rational.cmp b y x := by
  have swap2 : ∀ {α : Type} (u v : ℤ) (f : ℤ → ℤ → Res α),
      (I64.norm b u >>= fun p => I64.norm b v >>= fun q => f p q) =
      (I64.norm b v >>= fun q => I64.norm b u >>= fun p => f p q) := by
    intro α u v f
    unfold I64.norm
    by_cases h1 : I64.InRange u <;> by_cases h2 : I64.InRange v <;> cases b <;> simp [h1, h2]
  refine ⟨?_, ?_, ?_⟩
  · unfold Rational.add Integer.mul Integer.add
    rw [swap2]
    simp only [add_comm, mul_comm]
  · unfold Rational.mul Integer.mul
    simp only [mul_comm]
  · unfold Rational.cmp Integer.mul
    rw [swap2]
    simp only [map_bind, map_pure]
    refine congrArg (_ >>= ·) (funext fun p => congrArg (_ >>= ·) (funext fun q => ?_))
    rw [← Std.OrientedOrd.eq_swap]

theorem Rational.commutes (b : Build) : letI := Rational.field b
    Commutes Rational := by
  let _ := Rational.field b
  exact ⟨fun x y => (C192_rational b x y).1, fun x y => (C192_rational b x y).2.1⟩

namespace Flt
variable [Fmt]

/-- C192. Sums and products of two floats are bit for bit the same in both orders. -/
theorem C192_float (x y : Flt) : add x y = add y x ∧ mul x y = mul y x := by
  constructor
  · cases x <;> cases y <;> simp only [add]
    · split <;> split <;> simp_all
    · rw [Bool.and_comm, add_comm]
  · cases x <;> cases y <;> simp only [mul]
    · rw [Bool.xor_comm]
    · rw [Bool.xor_comm]
    · rw [Bool.xor_comm]
    · rw [Bool.xor_comm, Nat.mul_comm]

theorem commutes (b : Build) (powi : Flt → Int → Flt) : letI := field b powi
    Commutes Flt := by
  let _ := field b powi
  exact ⟨fun x y => congrArg Res.ok (C192_float x y).1, fun x y => congrArg Res.ok (C192_float x y).2⟩

end Flt

section
variable {F : Type} [RField F] [Commutes F]

/-! ### Polynomials -/

/-- The terms of a sum, without the order. -/
theorem mem_add {p q r : Poly F} (hp : p.Canonical) (hq : q.Canonical) (h : Poly.add p q = .ok r)
    (t : Term F) : t ∈ r ↔
      (t ∈ p ∧ t.mdeg ∉ q.map (·.mdeg)) ∨ (t ∈ q ∧ t.mdeg ∉ p.map (·.mdeg)) ∨
      ∃ s ∈ p, ∃ u ∈ q, s.mdeg = t.mdeg ∧ u.mdeg = t.mdeg ∧ RField.add s.coef u.coef = .ok t.coef ∧
        RField.beq t.coef RField.zero = false := by
  obtain ⟨cs, hcs, rfl⟩ := (C123_add p q r hp.nodup hq).mp h
  rw [mapM_ok_iff] at hcs
  have huniq : ∀ {u v : Term F}, u ∈ q → v ∈ q → u.mdeg = v.mdeg → u = v := fun hu hv he =>
    List.inj_on_of_nodup_map hq.nodup hu hv he
  have hmerge : ∀ s ∈ p, ∀ o, mergeTerm q s = .ok o → ∀ t, o = some t ↔
      (t = s ∧ s.mdeg ∉ q.map (·.mdeg)) ∨ ∃ u ∈ q, s.mdeg = t.mdeg ∧ u.mdeg = t.mdeg ∧
        RField.add s.coef u.coef = .ok t.coef ∧ RField.beq t.coef RField.zero = false := by
    intro s hs o ho t
    unfold mergeTerm at ho
    split at ho
    · rename_i hf
      rw [List.find?_eq_none] at hf
      have hs' : s.mdeg ∉ q.map (·.mdeg) := by
        intro hm
        obtain ⟨u, hu, he⟩ := List.mem_map.mp hm
        exact hf u hu (by simpa using he)
      cases ho
      constructor
      · intro h; cases h; exact .inl ⟨rfl, hs'⟩
      · rintro (⟨rfl, -⟩ | ⟨u, hu, h1, h2, -⟩)
        · rfl
        · exact absurd (List.mem_map.mpr ⟨u, hu, h2.trans h1.symm⟩) hs'
    · rename_i u hf
      have hu := List.mem_of_find?_eq_some hf
      have hus : u.mdeg = s.mdeg := by simpa using List.find?_some hf
      rw [bind_eq_ok] at ho
      obtain ⟨c, hc, ho⟩ := ho
      cases ho
      constructor
      · intro h
        split at h
        · cases h
        · rename_i hz
          cases h
          exact .inr ⟨u, hu, rfl, hus, hc, by simpa using hz⟩
      · rintro (⟨rfl, hn⟩ | ⟨v, hv, h1, h2, h3, h4⟩)
        · exact absurd (List.mem_map.mpr ⟨u, hu, hus⟩) hn
        · obtain rfl : v = u := huniq hv hu (h2.trans (h1.symm.trans hus.symm))
          rw [hc] at h3
          cases h3
          rw [if_neg (by simp [h4]), h1]
  rw [List.mem_append, List.mem_filterMap, List.mem_filter]
  have hex : (∃ a ∈ cs, id a = some t) ↔ ∃ s ∈ p, ∃ o, mergeTerm q s = .ok o ∧ o = some t := by
    constructor
    · rintro ⟨a, ha, he⟩
      obtain ⟨i, hi, rfl⟩ := List.getElem_of_mem ha
      rw [List.forall₂_iff_get] at hcs
      exact ⟨p[i]'(by rw [hcs.1]; exact hi), List.getElem_mem _, _, hcs.2 i (by rw [hcs.1]; exact hi) hi, he⟩
    · rintro ⟨s, hs, o, ho, rfl⟩
      obtain ⟨i, hi, rfl⟩ := List.getElem_of_mem hs
      rw [List.forall₂_iff_get] at hcs
      have := hcs.2 i hi (by rw [← hcs.1]; exact hi)
      rw [List.get_eq_getElem] at this
      rw [this] at ho
      exact ⟨_, List.getElem_mem _, Res.ok.inj ho⟩
  rw [hex]
  constructor
  · rintro (⟨s, hs, o, ho, he⟩ | ⟨ht, hn⟩)
    · rcases (hmerge s hs o ho t).mp he with ⟨rfl, hn⟩ | ⟨u, hu, h⟩
      · exact .inl ⟨hs, hn⟩
      · exact .inr (.inr ⟨s, hs, u, hu, h⟩)
    · exact .inr (.inl ⟨ht, by simpa using hn⟩)
  · have hall : ∀ s ∈ p, ∃ o, mergeTerm q s = .ok o := by
      intro s hs
      obtain ⟨i, hi, rfl⟩ := List.getElem_of_mem hs
      rw [List.forall₂_iff_get] at hcs
      exact ⟨_, hcs.2 i hi (by rw [← hcs.1]; exact hi)⟩
    rintro (⟨ht, hn⟩ | ⟨ht, hn⟩ | ⟨s, hs, h⟩)
    · obtain ⟨o, ho⟩ := hall t ht
      exact .inl ⟨t, ht, o, ho, (hmerge t ht o ho t).mpr (.inl ⟨rfl, hn⟩)⟩
    · exact .inr ⟨ht, by simpa using hn⟩
    · obtain ⟨o, ho⟩ := hall s hs
      exact .inl ⟨s, hs, o, ho, (hmerge s hs o ho t).mpr (.inr h)⟩

/-- C192. If `p + q` returns, so does `q + p`, with the same terms in another order, for polynomials without
zero coefficients and repeated multidegrees. -/
theorem C192_add (p q r : Poly F) (hp : p.Canonical) (hq : q.Canonical) (h : Poly.add p q = .ok r) :
    ∃ r', Poly.add q p = .ok r' ∧ r'.Perm r := by
  obtain ⟨cs, hcs, -⟩ := (C123_add p q r hp.nodup hq).mp h
  rw [mapM_ok_iff, List.forall₂_iff_get] at hcs
  -- the sums of coefficients that are needed
  have hsum : ∀ s ∈ p, ∀ u ∈ q, s.mdeg = u.mdeg → ∃ c, RField.add u.coef s.coef = .ok c := by
    intro s hs u hu he
    obtain ⟨i, hi, rfl⟩ := List.getElem_of_mem hs
    have hm := hcs.2 i hi (by rw [← hcs.1]; exact hi)
    rw [List.get_eq_getElem] at hm
    unfold mergeTerm at hm
    split at hm
    · rename_i hf
      rw [List.find?_eq_none] at hf
      exact absurd (by simpa using he.symm) (hf u hu)
    · rename_i v hf
      have hv := List.mem_of_find?_eq_some hf
      have hvs : v.mdeg = p[i].mdeg := by simpa using List.find?_some hf
      obtain rfl : v = u := List.inj_on_of_nodup_map hq.nodup hv hu (hvs.trans he)
      rw [bind_eq_ok] at hm
      obtain ⟨c, hc, -⟩ := hm
      exact ⟨c, by rw [Commutes.add]; exact hc⟩
  have hmerge : ∀ u ∈ q, ∃ o, mergeTerm p u = .ok o := by
    intro u hu
    unfold mergeTerm
    split
    · exact ⟨_, rfl⟩
    · rename_i s hf
      obtain ⟨c, hc⟩ := hsum s (List.mem_of_find?_eq_some hf) u hu (by simpa using List.find?_some hf)
      rw [hc]
      exact ⟨_, rfl⟩
  obtain ⟨cs', hcs'⟩ : ∃ cs', q.mapM (mergeTerm p) = .ok cs' := by
    clear hsum hcs h hq
    induction q with
    | nil => exact ⟨_, rfl⟩
    | cons u q ih =>
      obtain ⟨o, ho⟩ := hmerge u (by simp)
      obtain ⟨l, hl⟩ := ih fun v hv => hmerge v (by simp [hv])
      rw [List.mapM_cons, ho, bind_ok, hl]
      exact ⟨_, rfl⟩
  have h' := (C123_add q p _ hq.nodup hp).mpr ⟨cs', hcs', rfl⟩
  refine ⟨_, h', ?_⟩
  have n1 := (C94_add_partial p q r hp h).1.nodup.of_map
  have n2 := (C94_add_partial q p _ hq h').1.nodup.of_map
  refine (List.perm_ext_iff_of_nodup n2 n1).mpr fun t => ?_
  rw [mem_add hq hp h', mem_add hp hq h]
  constructor
  · rintro (h | h | ⟨s, hs, u, hu, h1, h2, h3, h4⟩)
    · exact .inr (.inl h)
    · exact .inl h
    · exact .inr (.inr ⟨u, hu, s, hs, h2, h1, by rw [Commutes.add]; exact h3, h4⟩)
  · rintro (h | h | ⟨s, hs, u, hu, h1, h2, h3, h4⟩)
    · exact .inr (.inl h)
    · exact .inl h
    · exact .inr (.inr ⟨u, hu, s, hs, h2, h1, by rw [Commutes.add]; exact h3, h4⟩)

/-! ### Matrices -/

/-- C192. The scalar products and the sums of two matrices, of any shapes, have the same outcome in both
orders. -/
theorem C192_mat (M N : Mat F) : M.dot N = N.dot M ∧ M.add N = N.add M := by
  constructor
  · unfold Mat.dot
    generalize (RField.zero : F) = z
    generalize M.entries = l, N.entries = l'
    induction l generalizing l' z with
    | nil => cases l' <;> rfl
    | cons x l ih =>
      cases l' with
      | nil => rfl
      | cons y l' =>
        rw [List.zip_cons_cons, List.zip_cons_cons, List.foldlM_cons, List.foldlM_cons]
        dsimp only
        rw [Commutes.mul x y]
        exact congrArg (_ >>= ·) (funext fun a => ih a l')
  · unfold Mat.add
    by_cases h : M.rows = N.rows ∧ M.cols = N.cols
    · rw [if_neg (by simp [h]), if_neg (by simp [h]), h.1, h.2]
      refine congrArg (· >>= _) ?_
      generalize M.entries = l, N.entries = l'
      induction l generalizing l' with
      | nil => cases l' <;> rfl
      | cons x l ih =>
        cases l' with
        | nil => rfl
        | cons y l' =>
          rw [List.zip_cons_cons, List.zip_cons_cons, List.mapM_cons, List.mapM_cons, ih]
          dsimp only
          rw [Commutes.add x y]
    · have h' : ¬ (N.rows = M.rows ∧ N.cols = M.cols) := fun h' => h ⟨h'.1.symm, h'.2.symm⟩
      rw [if_pos (by simpa [imp_iff_not_or] using h), if_pos (by simpa [imp_iff_not_or] using h')]

/-- The sum of products that is computed for one cell of a matrix product. -/
def cellOf (k : ℕ) (x y : ℕ → F) : Res F :=
  (List.range k).foldlM (fun accum j => do
    let z ← RField.mul (x j) (y j)
    RField.add accum z) RField.zero

theorem cellOf_comm (k : ℕ) (x y : ℕ → F) : cellOf k x y = cellOf k y x := by
  unfold cellOf
  refine congrArg (fun f => (List.range k).foldlM f RField.zero) ?_
  funext accum j
  rw [Commutes.mul]

omit [Commutes F] in
theorem foldlM_congr_of_mem {α β : Type} {f g : β → α → Res β} {l : List α} (h : ∀ b, ∀ a ∈ l, f b a = g b a)
    (b : β) : l.foldlM f b = l.foldlM g b := by
  induction l generalizing b with
  | nil => rfl
  | cons a l ih =>
    rw [List.foldlM_cons, List.foldlM_cons, h b a (by simp)]
    exact congrArg (_ >>= ·) (funext fun b => ih (fun b a ha => h b a (by simp [ha])) b)

omit [Commutes F] in
theorem mapM_congr_of_mem {α β : Type} {f g : α → Res β} {l : List α} (h : ∀ a ∈ l, f a = g a) :
    l.mapM f = l.mapM g := by
  induction l with
  | nil => rfl
  | cons a l ih =>
    rw [List.mapM_cons, List.mapM_cons, h a (by simp), ih fun b hb => h b (by simp [hb])]

omit [Commutes F] in
theorem mul_cells {M N : Mat F} {n k m : ℕ} {a b : ℕ → ℕ → F} (hM : M.Has n k a) (hN : N.Has k m b) :
    M.mul N = (do
      let entries ← (boxIter n m).mapM fun x => cellOf k (fun j => a x.1 j) (fun j => b j x.2)
      pure (Mat.new n m entries)) := by
  unfold Mat.mul
  rw [if_neg (by rw [hM.cols, hN.rows]; simp), hM.rows, hN.cols, hN.rows]
  refine congrArg (· >>= _) (mapM_congr_of_mem fun x hx => ?_)
  obtain ⟨h1, h2⟩ := mem_boxIter.mp hx
  dsimp only
  rw [hM.getRowIter h1, bind_ok]
  unfold cellOf
  have hz : ((List.range k).map fun j => a x.1 j).zip (List.range k) =
      (List.range k).map fun j => (a x.1 j, j) := by
    apply List.ext_getElem
    · simp
    · intro i h3 h4; simp
  rw [hz, List.foldlM_map]
  refine foldlM_congr_of_mem (fun acc j hj => ?_) _
  dsimp only
  rw [hN.get (List.mem_range.mp hj) h2, bind_ok]

omit [Commutes F] in
theorem Mat.Has.transpose_ok {M : Mat F} {n m : ℕ} {a : ℕ → ℕ → F} (h : M.Has n m a) :
    M.transpose = .ok (Mat.new m n ((boxIter m n).map fun x => a x.2 x.1)) := by
  unfold Mat.transpose
  rw [h.rows, h.cols, mapM_ok (g := fun x : ℕ × ℕ => a x.2 x.1) fun x hx => h.get (mem_boxIter.mp hx).2
    (mem_boxIter.mp hx).1]
  rfl

omit [Commutes F] in
theorem cells_ok {n m : ℕ} {e : ℕ → ℕ → Res F} {es : List F}
    (h : (boxIter n m).mapM (fun x => e x.1 x.2) = .ok es) : ∀ i < n, ∀ j < m, ∃ v, e i j = .ok v := by
  intro i hi j hj
  rw [mapM_ok_iff, List.forall₂_iff_get] at h
  obtain ⟨l, hl, he⟩ := List.getElem_of_mem (mem_boxIter.mpr ⟨hi, hj⟩ : (i, j) ∈ boxIter n m)
  have := h.2 l hl (by rw [← h.1]; exact hl)
  rw [List.get_eq_getElem, he] at this
  exact ⟨_, this⟩

/-- C192. The transpose of a product is the product of the transposes in reverse order, entry by entry the
same also where products and sums are rounded; and either both computations return or none. -/
theorem C192_transpose {M N : Mat F} {n k m : ℕ} (hM : M.Shape n k) (hN : N.Shape k m)
    (hs : n * m < 18446744073709551616) (R : Mat F) :
    (do let P ← M.mul N; P.transpose) = .ok R ↔
    (do let N' ← N.transpose; let M' ← M.transpose; N'.mul M') = .ok R := by
  obtain ⟨a, ha⟩ : ∃ a, M.Has n k a := ⟨_, hM.has⟩
  obtain ⟨b, hb⟩ : ∃ b, N.Has k m b := ⟨_, hN.has⟩
  rw [ha.transpose_ok, hb.transpose_ok, bind_ok, bind_ok, mul_cells ha hb,
    mul_cells (Mat.has_of_box hN.cols_lt hN.rows_lt (by rw [mul_comm]; exact hN.len_lt))
      (Mat.has_of_box hM.cols_lt hM.rows_lt (by rw [mul_comm]; exact hM.len_lt))]
  set e : ℕ → ℕ → Res F := fun i j => cellOf k (fun l => a i l) (fun l => b l j) with he
  have hc : ∀ x : ℕ × ℕ, cellOf k (fun l => b l x.1) (fun l => a x.2 l) = e x.2 x.1 := fun x =>
    cellOf_comm _ _ _
  simp only [hc]
  by_cases hall : ∀ i < n, ∀ j < m, ∃ v, e i j = .ok v
  · obtain ⟨v, hv⟩ : ∃ v : ℕ → ℕ → F, ∀ i < n, ∀ j < m, e i j = .ok (v i j) := by
      have : Nonempty F := ⟨RField.zero⟩
      choose! v hv using hall
      exact ⟨v, hv⟩
    rw [mapM_ok (g := fun x : ℕ × ℕ => v x.1 x.2) fun x hx => hv _ (mem_boxIter.mp hx).1 _ (mem_boxIter.mp hx).2,
      mapM_ok (g := fun x : ℕ × ℕ => v x.2 x.1) fun x hx => hv _ (mem_boxIter.mp hx).2 _ (mem_boxIter.mp hx).1]
    simp only [bind_ok]
    have := (Mat.has_of_box (f := fun x => v x.1 x.2) hM.rows_lt hN.cols_lt hs).transpose_ok
    change (Mat.new n m _).transpose = _ ↔ _
    rw [this]
    exact Iff.rfl
  · refine iff_of_false (fun h => hall ?_) fun h => hall ?_
    · obtain ⟨P, hP, -⟩ := bind_eq_ok.mp h
      obtain ⟨es, hes, -⟩ := bind_eq_ok.mp hP
      exact cells_ok hes
    · obtain ⟨es, hes, -⟩ := bind_eq_ok.mp h
      have := cells_ok (e := fun i j => e j i) hes
      exact fun i hi j hj => this j hj i hi

end

/-! ### What does not commute -/

/-- C192. Sums of three rationals may differ by the place of the brackets: `(1/2 - 1/2) + 1/3` is `1/3`, while
`1/2 + (-1/2 + 1/3)` is `4/12`, which `==` tells apart. -/
theorem C192_brackets (b : Build) :
    (do let x ← Rational.add b ⟨1, 2⟩ ⟨-1, 2⟩; Rational.add b x ⟨1, 3⟩) = .ok ⟨1, 3⟩ ∧
    (do let x ← Rational.add b ⟨-1, 2⟩ ⟨1, 3⟩; Rational.add b ⟨1, 2⟩ x) = .ok ⟨4, 12⟩ := by
  cases b <;> decide

namespace Flt
open Fmt
variable [Fmt]

/-- `2^53` for `f64`, `2^24` for `f32`, or its negative: to add one to the former changes nothing. -/
def bigF (s : Bool) : Flt := fin s (2 ^ (sig + 1 + unitExp))

/-- C192. Products of two polynomials over floats may depend on the order of the factors: with `H = 2^53`
(`f32`: `2^24`), the coefficient of `x²` in `(H + x - H x²)(1 + x + x²)` is computed as zero and its term is
missing, in `(1 + x + x²)(H + x - H x²)` it is one. -/
theorem C192_factors : letI powi : Flt → Int → Flt := fun _ _ => nan
    letI := field .debug powi
    Poly.mul [⟨bigF false, []⟩, ⟨one, [1]⟩, ⟨bigF true, [2]⟩] [⟨one, []⟩, ⟨one, [1]⟩, ⟨one, [2]⟩] =
      .ok [⟨bigF false, []⟩, ⟨bigF false, [1]⟩, ⟨add (bigF true) one, [3]⟩, ⟨bigF true, [4]⟩] ∧
    Poly.mul [⟨one, []⟩, ⟨one, [1]⟩, ⟨one, [2]⟩] [⟨bigF false, []⟩, ⟨one, [1]⟩, ⟨bigF true, [2]⟩] =
      .ok [⟨bigF false, []⟩, ⟨bigF false, [1]⟩, ⟨one, [2]⟩, ⟨add (bigF true) one, [3]⟩, ⟨bigF true, [4]⟩] := by
  fmt_decide

end Flt

/-- The hypotheses of `C192_add` and `C192_transpose` are met by small examples over `f64` and `f32`, in which
sums are rounded. -/
example [Fmt] : letI powi : Flt → Int → Flt := fun _ _ => .nan
    letI := Flt.field .debug powi
    ((∀ t ∈ [⟨Flt.one, []⟩, ⟨Flt.bigF true, [2]⟩], Term.isZero t = false) ∧
      ([⟨Flt.one, []⟩, ⟨Flt.bigF true, [2]⟩].map Term.mdeg).Nodup) ∧
    ((∀ t ∈ [⟨Flt.bigF false, []⟩, ⟨Flt.one, [1]⟩], Term.isZero t = false) ∧
      ([⟨Flt.bigF false, []⟩, ⟨Flt.one, [1]⟩].map Term.mdeg).Nodup) ∧
    Poly.add [⟨Flt.one, []⟩, ⟨Flt.bigF true, [2]⟩] [⟨Flt.bigF false, []⟩, ⟨Flt.one, [1]⟩] =
      .ok [⟨Flt.bigF false, []⟩, ⟨Flt.bigF true, [2]⟩, ⟨Flt.one, [1]⟩] := by
  fmt_decide

example [Fmt] : letI powi : Flt → Int → Flt := fun _ _ => .nan
    letI := Flt.field .debug powi
    Mat.mul ⟨[Flt.one, Flt.bigF false], 1, 2⟩ ⟨[Flt.one, Flt.one], 2, 1⟩ = .ok ⟨[Flt.bigF false], 1, 1⟩ := by
  fmt_decide

end Verif
