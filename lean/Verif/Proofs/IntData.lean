import Verif.Proofs.MatOps
import Verif.Proofs.Elts

/-!
# Computations with small integers

If sums, differences and products of integers are computed without a panic as long as they are at most
`B` in absolute value, then so are those of polynomials and matrices with integral coefficients of which
the sums of the absolute values are bounded by `B`.
-/

set_option linter.unusedSectionVars false

namespace Verif
open Res LawfulRField LinAlg

/-- The numbers of `F` that are integers, and the bound up to which the operations work on them. -/
structure IntData (F : Type) [RField F] [LawfulRField F ℚ] where
  B : ℤ
  isInt : F → ℤ → Prop
  val_eq : ∀ {x i}, isInt x i → val x = (i : ℚ)
  isInt_zero : isInt RField.zero 0
  add_ok : ∀ {x y i j}, isInt x i → isInt y j → |i + j| ≤ B →
    ∃ z, (RField.add x y : Res F) = .ok z ∧ isInt z (i + j)
  neg_ok : ∀ {x i}, isInt x i → |i| ≤ B → ∃ z, (RField.neg x : Res F) = .ok z ∧ isInt z (-i)
  mul_ok : ∀ {x y i j}, isInt x i → isInt y j → |i * j| ≤ B →
    ∃ z, (RField.mul x y : Res F) = .ok z ∧ isInt z (i * j)

namespace IntData
variable {F : Type} [RField F] [LawfulRField F ℚ] (D : IntData F)

/-! ### Polynomials -/

/-- All coefficients are integers. -/
def IntPoly (p : Poly F) : Prop := ∀ t ∈ p, ∃ i : ℤ, D.isInt t.coef i

/-- The sum of the absolute values of the coefficients. -/
def l1 (p : Poly F) : ℚ := (p.map fun t => |(val t.coef : ℚ)|).sum

theorem l1_nonneg (p : Poly F) : 0 ≤ l1 p :=
  List.sum_nonneg (by simp only [List.mem_map]; rintro _ ⟨t, _, rfl⟩; exact abs_nonneg _)

theorem l1_nil : l1 ([] : Poly F) = 0 := rfl

theorem l1_cons (t : Term F) (p : Poly F) : l1 (t :: p) = |(val t.coef : ℚ)| + l1 p := by
  simp [l1]

theorem intPoly_cons {t : Term F} {p : Poly F} :
    D.IntPoly (t :: p) ↔ (∃ i : ℤ, D.isInt t.coef i) ∧ D.IntPoly p := by
  simp [IntPoly]

theorem abs_le_of_rat {k : ℤ} {b : ℚ} (h : |(k : ℚ)| ≤ b) (hb : b ≤ D.B) : |k| ≤ D.B := by
  have : |(k : ℚ)| ≤ D.B := h.trans hb
  exact_mod_cast this

theorem addNonzeroTerm_int {p : Poly F} {t : Term F} (hp : D.IntPoly p)
    (ht : ∃ i : ℤ, D.isInt t.coef i) (hb : l1 p + |(val t.coef : ℚ)| ≤ D.B) :
    ∃ r, Poly.addNonzeroTerm p t = .ok r ∧ D.IntPoly r ∧
      l1 r ≤ l1 p + |(val t.coef : ℚ)| := by
  induction p with
  | nil => exact ⟨_, rfl, by simpa [IntPoly] using ht, by simp [l1]⟩
  | cons u p ih =>
    rw [D.intPoly_cons] at hp
    rw [l1_cons] at hb ⊢
    have hu := abs_nonneg (val u.coef : ℚ)
    have hl := l1_nonneg p
    unfold Poly.addNonzeroTerm
    split
    · obtain ⟨i, hi⟩ := hp.1
      obtain ⟨j, hj⟩ := ht
      have hij : |((i + j : ℤ) : ℚ)| ≤ |(val u.coef : ℚ)| + |(val t.coef : ℚ)| := by
        rw [D.val_eq hi, D.val_eq hj]; push_cast; exact abs_add_le _ _
      obtain ⟨z, hz, hzi⟩ := D.add_ok hi hj (D.abs_le_of_rat hij (by linarith))
      have hz' : (RField.add u.coef t.coef : Res F) = .ok z := hz
      rw [hz', bind_ok]
      rw [← D.val_eq hzi] at hij
      dsimp only
      split
      · exact ⟨_, rfl, hp.2, by linarith [abs_nonneg (val t.coef : ℚ)]⟩
      · refine ⟨_, rfl, D.intPoly_cons.mpr ⟨⟨_, hzi⟩, hp.2⟩, ?_⟩
        rw [l1_cons]; linarith
    · obtain ⟨r, hr, h1, h2⟩ := ih hp.2 (by linarith)
      rw [hr, bind_ok]
      refine ⟨_, rfl, D.intPoly_cons.mpr ⟨hp.1, h1⟩, ?_⟩
      rw [l1_cons]; linarith

theorem addTerm_int {p : Poly F} {t : Term F} (hp : D.IntPoly p)
    (ht : ∃ i : ℤ, D.isInt t.coef i) (hb : l1 p + |(val t.coef : ℚ)| ≤ D.B) :
    ∃ r, Poly.addTerm p t = .ok r ∧ D.IntPoly r ∧
      l1 r ≤ l1 p + |(val t.coef : ℚ)| := by
  have h0 := l1_nonneg p
  have h1 := abs_nonneg (val t.coef : ℚ)
  unfold Poly.addTerm
  split
  · unfold Poly.ofTerm
    split
    · exact ⟨_, rfl, (by intro _ h; cases h), by rw [show l1 Poly.zero = 0 from rfl]; linarith⟩
    · refine ⟨_, rfl, by simpa [IntPoly, Poly.termUnchecked, Poly.newUnchecked] using ht, ?_⟩
      unfold Poly.termUnchecked Poly.newUnchecked
      rw [l1_cons, l1_nil]; linarith
  · split
    · exact ⟨_, rfl, hp, by linarith⟩
    · exact D.addNonzeroTerm_int hp ht hb

theorem add_int {p q : Poly F} (hp : D.IntPoly p) (hq : D.IntPoly q) (hb : l1 p + l1 q ≤ D.B) :
    ∃ r, Poly.add p q = .ok r ∧ D.IntPoly r ∧ l1 r ≤ l1 p + l1 q := by
  unfold Poly.add
  induction q generalizing p with
  | nil => exact ⟨p, rfl, hp, by rw [l1_nil]; linarith⟩
  | cons t q ih =>
    rw [D.intPoly_cons] at hq
    rw [l1_cons] at hb ⊢
    have := l1_nonneg q
    obtain ⟨r, hr, h1, h2⟩ := D.addTerm_int hp hq.1 (by linarith)
    obtain ⟨r', hr', h3, h4⟩ := ih h1 hq.2 (by linarith)
    rw [List.foldlM_cons, hr, bind_ok]
    exact ⟨r', hr', h3, by linarith⟩

theorem neg_int {p : Poly F} (hp : D.IntPoly p) (hb : l1 p ≤ D.B) :
    ∃ r, Poly.neg p = .ok r ∧ D.IntPoly r ∧ l1 r = l1 p := by
  unfold Poly.neg
  induction p with
  | nil => exact ⟨[], rfl, hp, rfl⟩
  | cons t p ih =>
    rw [D.intPoly_cons] at hp
    obtain ⟨i, hi⟩ := hp.1
    rw [l1_cons] at hb
    have hu := abs_nonneg (val t.coef : ℚ)
    have hl := l1_nonneg p
    obtain ⟨z, hz, hzi⟩ := D.neg_ok hi (D.abs_le_of_rat (b := |(val t.coef : ℚ)|) (by rw [D.val_eq hi]) (by linarith))
    obtain ⟨r, hr, h1, h2⟩ := ih hp.2 (by linarith)
    have ht : t.neg = .ok ⟨z, t.mdeg⟩ := by
      unfold Term.neg
      rw [show (RField.neg t.coef : Res F) = .ok z from hz]; rfl
    rw [List.mapM_cons, ht, bind_ok, hr, bind_ok]
    refine ⟨_, rfl, D.intPoly_cons.mpr ⟨⟨_, hzi⟩, h1⟩, ?_⟩
    rw [l1_cons, l1_cons, h2]
    dsimp only
    rw [D.val_eq hzi, D.val_eq hi]; push_cast; rw [abs_neg]

theorem sub_int {p q : Poly F} (hp : D.IntPoly p) (hq : D.IntPoly q) (hb : l1 p + l1 q ≤ D.B) :
    ∃ r, Poly.sub p q = .ok r ∧ D.IntPoly r ∧ l1 r ≤ l1 p + l1 q := by
  obtain ⟨q', hq', h1, h2⟩ := D.neg_int hq (by linarith [l1_nonneg p])
  unfold Poly.sub
  rw [hq', bind_ok, ← h2]
  exact D.add_int hp h1 (by rw [h2]; exact hb)

theorem mulTerm_int {p : Poly F} {t : Term F} (hp : D.IntPoly p)
    (ht : ∃ i : ℤ, D.isInt t.coef i) (hb : l1 p * |(val t.coef : ℚ)| ≤ D.B)
    (hd : ∀ u ∈ p, ∃ m, MDeg.add (RField.build F) u.mdeg t.mdeg = .ok m) :
    ∃ r, Poly.mulTerm p t = .ok r ∧ D.IntPoly r ∧
      l1 r ≤ l1 p * |(val t.coef : ℚ)| := by
  have h1 := abs_nonneg (val t.coef : ℚ)
  unfold Poly.mulTerm
  split
  · exact ⟨_, rfl, (by intro _ h; cases h),
      by rw [show l1 Poly.zero = 0 from rfl]; exact mul_nonneg (l1_nonneg p) h1⟩
  · rename_i hnz
    have htz : t.isZero = false := by
      cases h : t.isZero with
      | false => rfl
      | true => rw [h] at hnz; simp at hnz
    clear hnz
    induction p with
    | nil => exact ⟨[], rfl, hp, by simp [l1]⟩
    | cons u p ih =>
      rw [D.intPoly_cons] at hp
      rw [l1_cons, add_mul] at hb ⊢
      have hu := mul_nonneg (abs_nonneg (val u.coef : ℚ)) h1
      have hl := mul_nonneg (l1_nonneg p) h1
      obtain ⟨i, hi⟩ := hp.1
      obtain ⟨r, hr, h2, h3⟩ := ih hp.2 (by linarith) fun v hv => hd v (List.mem_cons_of_mem _ hv)
      obtain ⟨m, hm⟩ := hd u List.mem_cons_self
      obtain ⟨j, hj⟩ := ht
      have hij : |((i * j : ℤ) : ℚ)| = |(val u.coef : ℚ)| * |(val t.coef : ℚ)| := by
        rw [D.val_eq hi, D.val_eq hj]; push_cast; exact abs_mul _ _
      have hw : ∃ w, u.mul t = .ok w ∧ (∃ k : ℤ, D.isInt w.coef k) ∧
          |(val w.coef : ℚ)| ≤ |(val u.coef : ℚ)| * |(val t.coef : ℚ)| := by
        unfold Term.mul
        rw [htz, Bool.or_false]
        split
        · refine ⟨_, rfl, ⟨0, D.isInt_zero⟩, ?_⟩
          rw [show (val (Term.zero : Term F).coef : ℚ) = 0 from val_zero, abs_zero]
          exact hu
        · obtain ⟨z, hz, hzi⟩ := D.mul_ok hi hj (D.abs_le_of_rat hij.le (by linarith))
          rw [show (RField.mul u.coef t.coef : Res F) = .ok z from hz, bind_ok,
            show MDeg.add (RField.build F) u.mdeg t.mdeg = .ok m from hm, bind_ok]
          refine ⟨_, rfl, ⟨_, hzi⟩, ?_⟩
          unfold Term.newUnchecked
          rw [D.val_eq hzi, hij]
      obtain ⟨w, hw, hwi, hwb⟩ := hw
      rw [List.mapM_cons, hw, bind_ok, hr, bind_ok]
      refine ⟨_, rfl, D.intPoly_cons.mpr ⟨hwi, h2⟩, ?_⟩
      rw [l1_cons]; linarith

theorem mul_int {p q : Poly F} (hp : D.IntPoly p) (hq : D.IntPoly q) (hb : l1 p * l1 q ≤ D.B)
    (hd : ∀ t ∈ p, ∀ u ∈ q, ∃ m, MDeg.add (RField.build F) u.mdeg t.mdeg = .ok m) :
    ∃ r, Poly.mul p q = .ok r ∧ D.IntPoly r ∧ l1 r ≤ l1 p * l1 q := by
  have hq0 := l1_nonneg q
  have key : ∀ (p : Poly F) (acc : Poly F), D.IntPoly p → D.IntPoly acc →
      l1 acc + l1 p * l1 q ≤ D.B →
      (∀ t ∈ p, ∀ u ∈ q, ∃ m, MDeg.add (RField.build F) u.mdeg t.mdeg = .ok m) →
      ∃ r, (p.map fun t => Poly.mulTerm q t).foldlM (fun acc y => do let y ← y; Poly.add acc y) acc =
        .ok r ∧ D.IntPoly r ∧ l1 r ≤ l1 acc + l1 p * l1 q := by
    intro p
    induction p with
    | nil => intro acc _ ha _ _; exact ⟨acc, rfl, ha, by simp [l1]⟩
    | cons t p ih =>
      intro acc hp ha hb hd
      rw [D.intPoly_cons] at hp
      rw [l1_cons, add_mul] at hb ⊢
      have h0 := l1_nonneg acc
      have h1 := mul_nonneg (l1_nonneg p) hq0
      obtain ⟨y, hy, h2, h3⟩ := D.mulTerm_int hq hp.1 (by rw [mul_comm]; linarith)
        (hd t List.mem_cons_self)
      rw [mul_comm] at h3
      obtain ⟨a, haa, h4, h5⟩ := D.add_int ha h2 (by linarith)
      obtain ⟨r, hr, h6, h7⟩ := ih a hp.2 h4 (by linarith) fun u hu => hd u (List.mem_cons_of_mem _ hu)
      rw [List.map_cons, List.foldlM_cons, hy, bind_ok, haa, bind_ok]
      exact ⟨r, hr, h6, by linarith⟩
  cases p with
  | nil => exact ⟨_, rfl, (by intro _ h; cases h), by rw [l1_nil, zero_mul]; exact le_refl _⟩
  | cons t p =>
    rw [D.intPoly_cons] at hp
    rw [l1_cons, add_mul] at hb ⊢
    have h1 := mul_nonneg (l1_nonneg p) hq0
    obtain ⟨y, hy, h2, h3⟩ := D.mulTerm_int hq hp.1 (by rw [mul_comm]; linarith)
      (hd t List.mem_cons_self)
    rw [mul_comm] at h3
    obtain ⟨r, hr, h6, h7⟩ := key p y hp.2 h2 (by linarith) fun u hu => hd u (List.mem_cons_of_mem _ hu)
    refine ⟨r, ?_, h6, by linarith⟩
    unfold Poly.mul reduceM
    rw [List.map_cons]
    dsimp only
    rw [hy, bind_ok]
    exact hr

/-! ### Matrices -/

variable {i j : ℤ}

theorem foldlM_int {α : Type} {f : F → α → Res F} {l : List α} {gs : List ℤ}
    (h : List.Forall₂ (fun a g => ∀ acc i, D.isInt acc i → |g| ≤ D.B → |i + g| ≤ D.B →
      ∃ z, f acc a = .ok z ∧ D.isInt z (i + g)) l gs) {acc : F} (ha : D.isInt acc i)
    (hb : |i| + (gs.map (|·|)).sum ≤ D.B) :
    ∃ z, l.foldlM f acc = .ok z ∧ D.isInt z (i + gs.sum) := by
  induction h generalizing acc i with
  | nil => exact ⟨acc, rfl, by simpa using ha⟩
  | @cons a g l gs h1 h2 ih =>
    rw [List.map_cons, List.sum_cons] at hb
    have h0 : 0 ≤ (gs.map (|·|)).sum := List.sum_nonneg (by
      simp only [List.mem_map]; rintro _ ⟨t, _, rfl⟩; exact abs_nonneg _)
    have h3 := abs_add_le i g
    have h4 := abs_nonneg i
    obtain ⟨z, hz, hzi⟩ := h1 acc i ha (by omega) (by omega)
    obtain ⟨w, hw, hwi⟩ := ih hzi (by omega)
    rw [List.foldlM_cons, hz, bind_ok, List.sum_cons, ← add_assoc]
    exact ⟨w, hw, hwi⟩

theorem mapM_all_ok {α β : Type} {f : α → Res β} {P : β → Prop} {l : List α}
    (h : ∀ a ∈ l, ∃ b, f a = .ok b ∧ P b) : ∃ r, l.mapM f = .ok r ∧ ∀ b ∈ r, P b := by
  induction l with
  | nil => exact ⟨[], rfl, fun _ h => by cases h⟩
  | cons a l ih =>
    obtain ⟨b, hb, hP⟩ := h a List.mem_cons_self
    obtain ⟨r, hr, hr'⟩ := ih fun c hc => h c (List.mem_cons_of_mem _ hc)
    rw [List.mapM_cons, hb, bind_ok, hr, bind_ok]
    refine ⟨_, rfl, fun c hc => ?_⟩
    rcases List.mem_cons.mp hc with rfl | hc
    · exact hP
    · exact hr' c hc

theorem mulAdd_ok {x y acc : F} {k : ℤ} (hx : D.isInt x i) (hy : D.isInt y j) (ha : D.isInt acc k)
    (h1 : |i * j| ≤ D.B) (h2 : |k + i * j| ≤ D.B) :
    ∃ z, ((RField.mul x y : Res F) >>= fun z => RField.add acc z) = .ok z ∧
      D.isInt z (k + i * j) := by
  obtain ⟨z, hz, hzi⟩ := D.mul_ok hx hy h1
  obtain ⟨w, hw, hwi⟩ := D.add_ok ha hzi h2
  rw [hz, bind_ok]
  exact ⟨w, hw, hwi⟩

section
variable {M N : Mat F} {n m q : ℕ} {a b : ℕ → ℕ → ℤ}

/-- A matrix of integers. -/
def IntMat (M : Mat F) (n m : ℕ) (a : ℕ → ℕ → ℤ) : Prop :=
  M.Is n m (fun i j => (a i j : ℚ)) ∧ ∀ x ∈ M.entries, ∃ i, D.isInt x i

theorem IntMat.isInt {D : IntData F} (h : D.IntMat M n m a) {x : F} {i : ℤ}
    (hx : x ∈ M.entries) (hv : val x = (i : ℚ)) : D.isInt x i := by
  obtain ⟨j, hj⟩ := h.2 x hx
  have := (D.val_eq hj).symm.trans hv
  rwa [Int.cast_injective this] at hj

theorem mem_of_get {M : Mat F} {r c : ℕ} {x : F} (h : M.get r c = .ok x) : x ∈ M.entries := by
  unfold Mat.get at h
  obtain ⟨i, -, h⟩ := bind_eq_ok.mp h
  split at h
  · next y hy => cases h; exact List.mem_of_getElem? hy
  · cases h

theorem matMul_int (h : D.IntMat M n m a) (h' : D.IntMat N m q b)
    (hb : ∀ i j, i < n → j < q → ∑ k ∈ Finset.range m, |a i k * b k j| ≤ D.B) :
    ∃ R, Mat.mul M N = .ok R ∧ ∀ x ∈ R.entries, ∃ i, D.isInt x i := by
  unfold Mat.mul
  rw [if_neg (by rw [h.1.cols, h'.1.rows]; simp), h.1.rows, h'.1.cols, h'.1.rows]
  obtain ⟨l, hl, hP⟩ := mapM_all_ok (P := fun x => ∃ i, D.isInt x i) (l := boxIter n q)
    (f := fun (r, c) => do
      let row ← M.getRowIter r
      (row.zip (List.range m)).foldlM (fun accum (x, k) => do
        let y ← N.get k c
        let z ← RField.mul x y
        RField.add accum z) RField.zero) (by
    rintro ⟨i, j⟩ hp
    obtain ⟨hi, hj⟩ := mem_boxIter.mp hp
    obtain ⟨l, hl, hlen, hx⟩ := h.1.getRowIter hi
    dsimp only
    rw [hl, bind_ok]
    refine (D.foldlM_int (i := 0) (gs := (List.range m).map fun k => a i k * b k j) ?_ D.isInt_zero ?_).imp
      fun _ h => ⟨h.1, _, h.2⟩
    · rw [List.forall₂_iff_get]
      refine ⟨by simp [hlen], fun k h1 h2 acc c hc hg hs => ?_⟩
      have hk : k < m := by simpa using h2
      obtain ⟨x, hx1, hx2, hw, hv⟩ := hx k hk
      obtain ⟨y, hy, hyw, hyv⟩ := h'.1.get hk hj
      have hlk : k < l.length := by omega
      have hxk : l[k] = x := by
        rw [List.getElem?_eq_getElem hlk] at hx1; exact Option.some_inj.mp hx1
      simp only [List.get_eq_getElem, List.getElem_zip, List.getElem_range, List.getElem_map] at *
      rw [hy, bind_ok, hxk]
      exact D.mulAdd_ok (h.isInt (List.mem_of_getElem? hx2) hv) (h'.isInt (mem_of_get hy) hyv) hc hg hs
    · rw [abs_zero, zero_add, List.map_map]
      have := hb i j hi hj
      rwa [← sum_range_list] at this)
  rw [hl, bind_ok]
  exact ⟨_, rfl, hP⟩

theorem matDot_int (h : D.IntMat M n m a) (h' : D.IntMat N n m b)
    (hb : ∑ i ∈ Finset.range n, ∑ j ∈ Finset.range m, |a i j * b i j| ≤ D.B) :
    ∃ c, Mat.dot M N = .ok c ∧ ∃ i, D.isInt c i := by
  unfold Mat.dot
  refine (D.foldlM_int (i := 0) (gs := (boxIter n m).map fun p => a p.1 p.2 * b p.1 p.2) ?_ D.isInt_zero
    ?_).imp fun _ h => ⟨h.1, _, h.2⟩
  · rw [List.forall₂_iff_get]
    refine ⟨by simp [h.1.len, h'.1.len, boxIter_length], fun k h1 h2 acc c hc hg hs => ?_⟩
    have hk : k < n * m := by rwa [List.length_map, boxIter_length] at h2
    have hbk : (boxIter n m)[k]'(by rw [boxIter_length]; exact hk) = (k / m, k % m) := by
      have := Mat.boxIter_getElem? hk
      rw [List.getElem?_eq_getElem (by rw [boxIter_length]; exact hk)] at this
      exact Option.some_inj.mp this
    obtain ⟨x, hx, hw, hv⟩ := h.1.entries hk
    obtain ⟨y, hy, hyw, hyv⟩ := h'.1.entries hk
    have h1 : k < M.entries.length := by rw [h.1.len]; exact hk
    have h1' : k < N.entries.length := by rw [h'.1.len]; exact hk
    have hxk : M.entries[k] = x := by
      rw [List.getElem?_eq_getElem h1] at hx; exact Option.some_inj.mp hx
    have hyk : N.entries[k] = y := by
      rw [List.getElem?_eq_getElem h1'] at hy; exact Option.some_inj.mp hy
    simp only [List.get_eq_getElem, List.getElem_zip, List.getElem_map] at *
    rw [hbk] at hg hs ⊢
    rw [hxk, hyk]
    exact D.mulAdd_ok (h.isInt (List.mem_of_getElem? hx) hv) (h'.isInt (List.mem_of_getElem? hy) hyv) hc hg hs
  · rw [abs_zero, zero_add, List.map_map]
    rwa [← sum_boxIter n m fun p => |a p.1 p.2 * b p.1 p.2|] at hb

theorem matAdd_int (h : D.IntMat M n m a) (h' : D.IntMat N n m b)
    (hb : ∀ i j, i < n → j < m → |a i j + b i j| ≤ D.B) :
    ∃ R, Mat.add M N = .ok R ∧ ∀ x ∈ R.entries, ∃ i, D.isInt x i := by
  unfold Mat.add
  rw [if_neg (by rw [h.1.rows, h.1.cols, h'.1.rows, h'.1.cols]; simp)]
  obtain ⟨l, hl, hP⟩ := mapM_all_ok (P := fun x => ∃ i, D.isInt x i) (l := M.entries.zip N.entries)
    (f := fun (x, y) => (RField.add x y : Res F)) (by
    rintro ⟨x, y⟩ hp
    obtain ⟨k, hk⟩ := List.getElem?_of_mem hp
    rw [List.getElem?_zip_eq_some] at hk
    have hkl : k < n * m := by
      rw [← h.1.len]; exact (List.getElem?_eq_some_iff.mp hk.1).1
    obtain ⟨x', hx, hw, hv⟩ := h.1.entries hkl
    obtain ⟨y', hy, hyw, hyv⟩ := h'.1.entries hkl
    rw [hk.1] at hx; cases hx
    rw [hk.2] at hy; cases hy
    obtain ⟨h1, h2, -⟩ := rowMajor_divMod hkl
    exact (D.add_ok (h.isInt (List.mem_of_getElem? hk.1) hv) (h'.isInt (List.mem_of_getElem? hk.2) hyv)
      (hb _ _ h1 h2)).imp fun _ h => ⟨h.1, _, h.2⟩)
  rw [hl, bind_ok]
  exact ⟨_, rfl, hP⟩

end
end IntData
end Verif
