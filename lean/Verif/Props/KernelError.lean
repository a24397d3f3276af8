import Verif.Props.FormError
import Verif.Props.LuForm
import Verif.Props.ReadOut
import Verif.Proofs.Closed

/-!
# Property C222: residuals of `compute_kernel` over `f32` and `f64`

`compute_kernel` only negates entries of `b`, which is exact; so the product of `b` and a vector it returns is
known exactly.  With the rounding errors of `row_echelon` and `to_rref` (C138, C139) this bounds the product of
the original matrix and the vector.
-/

namespace Verif
open Res LinAlg
namespace Flt
open Fmt
variable [Fmt]

/-- Entry `(i, j)` is the first of row `i` that does not pass the test for zero. -/
def Leads (m : ℕ) (R : ℕ → ℕ → Flt) (i j : ℕ) : Prop :=
  j < m ∧ epsilonEquals (R i j) zero = false ∧ ∀ k < j, epsilonEquals (R i k) zero = true

/-- The last row that `j` leads. -/
def LastLed (n m : ℕ) (R : ℕ → ℕ → Flt) (j t : ℕ) : Prop :=
  t < n ∧ Leads m R t j ∧ ∀ i, t < i → i < n → ¬ Leads m R i j

/-- The leading columns are exactly columns of the identity matrix, and what passes the test for zero to the left of
the leading entry of its row is exactly zero. -/
structure ExactlyReduced (n m : ℕ) (R : ℕ → ℕ → Flt) : Prop where
  one : ∀ i j, i < n → Leads m R i j → (R i j).val = 1
  zero : ∀ i j t, i < n → Leads m R i j → t < n → t ≠ i → (R t j).val = 0
  left : ∀ i j, i < n → j < m → (∀ k, k ≤ j → epsilonEquals (R i k) Flt.zero = true) → (R i j).val = 0

theorem leadCol_iff {m : ℕ} {R : ℕ → ℕ → Flt} {i j : ℕ} :
    leadCol m (fun i j => epsilonEquals (R i j) zero) i = some j ↔ Leads m R i j := leadCol_eq_some

theorem zero_sub_value {x : Flt} (hv : x.Valid) (hf : x.value ≠ none) :
    (sub zero x).value = some (-x.val) := by
  have hn : (neg x).value = some (-x.val) := by rw [value_neg, value_val hf]; rfl
  have hfin : (sub zero x).value ≠ none := by
    cases x with
    | nan => exact absurd rfl hf
    | inf _ => exact absurd rfl hf
    | fin s n =>
      have e : (units false 0 + units (!s) n).natAbs = n := by unfold units; cases s <;> simp
      rw [sub, neg, zero, add_fin, ofUnits]
      split
      · simp [value]
      · rw [e, round]
        simp only [hv.1, hv.2, if_true]
        simp [value]
  obtain ⟨c, hc⟩ := Option.ne_none_iff_exists'.mp hfin
  rw [hc, zero_add_value value_zero hn (valid_neg _ hv) hc]

theorem eq_false_of_eps (x : Flt) (h : epsilonEquals x zero = false) : eq x zero = false := by
  cases x with
  | nan => rfl
  | inf s => cases s <;> rfl
  | fin s n =>
    by_contra hh
    have h1 : units s n = units false 0 := by
      simpa [eq, zero, partialCmp] using hh
    have : epsilonEquals (fin s n) zero = true := by
      refine (C89_epsilon_equals _ _).mpr ⟨0, 0, ?_, value_zero, by simpa using gap_posQ⟩
      rw [value, h1]
      simp [units]
    rw [this] at h
    cases h

theorem closed_valid (b : Build) (powi : Flt → Int → Flt) :
    letI := field b powi
    ClosedField (F := Flt) Valid := by
  let _ := field b powi
  exact {
    zero := valid_constants.1
    one := valid_constants.2.1
    add := fun x y _ _ => Holds.ok (valid_add x y)
    sub := fun x y _ _ => Holds.ok (valid_sub x y)
    neg := fun x hx => Holds.ok (valid_neg x hx)
    mul := fun x y _ _ => Holds.ok (valid_mul x y)
    div := fun x y _ _ _ => Holds.ok (valid_div x y)
    inv := fun x _ _ => Holds.ok (valid_div _ x) }

omit [Fmt] in
theorem find_last {p : ℕ → Bool} {n t : ℕ} : (List.range n).reverse.find? p = some t ↔
    t < n ∧ p t = true ∧ ∀ i, t < i → i < n → p i = false := by
  induction n with
  | zero => simp
  | succ n ih =>
    rw [List.range_succ, List.reverse_append, List.reverse_singleton, List.singleton_append,
      List.find?_cons]
    cases hp : p n with
    | true =>
      simp only [Option.some.injEq]
      constructor
      · rintro rfl
        exact ⟨by omega, hp, fun i h1 h2 => by omega⟩
      · rintro ⟨h1, h2, h3⟩
        by_contra hne
        have := h3 n (by omega) (by omega)
        rw [hp] at this
        cases this
    | false =>
      simp only
      rw [ih]
      constructor
      · rintro ⟨h1, h2, h3⟩
        refine ⟨by omega, h2, fun i hi hin => ?_⟩
        rcases Nat.lt_succ_iff_lt_or_eq.mp hin with h | rfl
        · exact h3 i hi h
        · exact hp
      · rintro ⟨h1, h2, h3⟩
        refine ⟨?_, h2, fun i hi hin => h3 i hi (by omega)⟩
        rcases Nat.lt_succ_iff_lt_or_eq.mp h1 with h | rfl
        · exact h
        · rw [hp] at h2; cases h2

section
variable {n m : ℕ} {R : ℕ → ℕ → Flt}

theorem find_lastLed {j t : ℕ} : (List.range n).reverse.find? (fun i =>
    leadCol m (fun i j => epsilonEquals (R i j) zero) i == some j) = some t ↔ LastLed n m R j t := by
  rw [find_last]
  unfold LastLed
  simp only [beq_iff_eq, leadCol_iff, beq_eq_false_iff_ne, ne_eq]

open Classical in
/-- C222. The product of `b` and a vector of `compute_kernel`, exactly: for the vector of column `c` and row `i`,
`b(i, c)` minus the sum of `b(i, j) b(t, c)` over the columns `j < c` that lead a row, `t` being the last row
that `j` leads. -/
theorem C222_residual (b : Build) (powi : Flt → Int → Flt) {f : Form Flt}
    (hv : ∀ i j, i < n → j < m → (R i j).Valid ∧ (R i j).value ≠ none) :
    letI := field b powi
    f.b.Has n m R → ∃ (cs : List ℕ) (vs : List (Mat Flt)), f.computeKernel = .ok vs ∧
      (∀ c, c ∈ cs ↔ c < m ∧ ∀ i < n, ¬ Leads m R i c) ∧
      List.Forall₂ (fun c v => ∃ x : ℕ → Flt, v.Has m 1 (fun j _ => x j) ∧
        (∀ j < m, (x j).value ≠ none) ∧ (x c).val = 1 ∧
        ∀ i < n, ∑ j ∈ Finset.range m, (R i j).val * (x j).val = (R i c).val -
          ∑ j ∈ Finset.range c, ∑ t ∈ Finset.range n,
            if LastLed n m R j t then (R i j).val * (R t c).val else 0) cs vs := by
  let _ := field b powi
  intro h
  obtain ⟨vs, h1, h2⟩ := C173_kernel (z := fun i j => epsilonEquals (R i j) zero) (s := fun i j => sub zero (R i j)) h
    (fun _ _ _ _ => rfl) fun _ _ _ _ => rfl
  have hmem : ∀ c, c ∈ unledCols n m (fun i j => epsilonEquals (R i j) zero) ↔
      c < m ∧ ∀ i < n, ¬ Leads m R i c := fun c => by
    simp [unledCols, leadCol_iff]
  refine ⟨_, vs, h1, hmem, ?_⟩
  refine ((List.forall₂_and_left _ _).mpr ⟨fun c hc => ((hmem c).mp hc).1, h2⟩).imp ?_
  rintro c v ⟨hc, hx⟩
  have e1 : (kernelEntry n m (fun i j => epsilonEquals (R i j) zero)
      (fun i j => sub zero (R i j)) c c : Flt).val = 1 := by
    unfold kernelEntry
    rw [if_pos rfl]
    exact val_one
  refine ⟨_, hx, fun j hj => ?_, e1, fun i hi => ?_⟩
  · unfold kernelEntry
    split
    · exact fun h => by rw [show (RField.one : Flt) = one from rfl, value_one] at h; cases h
    · split
      · split
        · next t ht =>
          have ht' := (find_lastLed.mp ht).1
          rw [zero_sub_value (hv t c ht' hc).1 (hv t c ht' hc).2]
          simp
        · exact fun h => by rw [show (RField.zero : Flt) = zero from rfl, value_zero] at h; cases h
      · exact fun h => by rw [show (RField.zero : Flt) = zero from rfl, value_zero] at h; cases h
  · have e0 : ∀ j, c < j → (kernelEntry n m (fun i j => epsilonEquals (R i j) zero)
        (fun i j => sub zero (R i j)) c j : Flt).val = 0 := fun j hj => by
      unfold kernelEntry
      rw [if_neg (by omega), if_neg (by omega)]
      exact val_zero
    have e2 : ∀ j, j < c → (R i j).val * (kernelEntry n m (fun i j => epsilonEquals (R i j) zero)
        (fun i j => sub zero (R i j)) c j : Flt).val =
        -∑ t ∈ Finset.range n, if LastLed n m R j t then (R i j).val * (R t c).val else 0 := fun j hj => by
      unfold kernelEntry
      rw [if_neg (by omega), if_pos hj]
      split
      · next t ht =>
        have ht' := find_lastLed.mp ht
        rw [Finset.sum_eq_single_of_mem t (Finset.mem_range.mpr ht'.1) fun t' _ hne => if_neg fun h' =>
          hne (Option.some.inj ((find_lastLed.mpr h').symm.trans ht)), if_pos ht',
          val_eq (zero_sub_value (hv t c ht'.1 hc).1 (hv t c ht'.1 hc).2)]
        ring
      · next ht =>
        rw [Finset.sum_eq_zero fun t _ => if_neg fun h' => by
          exact absurd (ht.symm.trans (find_lastLed.mpr h')) (by simp), show (RField.zero : Flt) = zero from rfl, val_zero]
        ring
    obtain ⟨d, rfl⟩ : ∃ d, m = c + 1 + d := ⟨m - c - 1, by omega⟩
    rw [Finset.sum_range_add, Finset.sum_range_succ, Finset.sum_eq_zero (s := Finset.range d)
      fun j _ => by rw [e0 _ (by omega), mul_zero], e1, add_zero, mul_one,
      Finset.sum_congr rfl fun j hj => e2 j (Finset.mem_range.mp hj), Finset.sum_neg_distrib]
    ring

/-- C222. If the leading columns of `b` are exactly columns of the identity matrix, then the vectors of
`compute_kernel` are exactly in the kernel of `b`. -/
theorem C222_exact (b : Build) (powi : Flt → Int → Flt) {f : Form Flt}
    (hv : ∀ i j, i < n → j < m → (R i j).Valid ∧ (R i j).value ≠ none) (hR : ExactlyReduced n m R) :
    letI := field b powi
    f.b.Has n m R → ∃ (cs : List ℕ) (vs : List (Mat Flt)), f.computeKernel = .ok vs ∧
      (∀ c, c ∈ cs ↔ c < m ∧ ∀ i < n, ¬ Leads m R i c) ∧
      List.Forall₂ (fun c v => ∃ x : ℕ → Flt, v.Has m 1 (fun j _ => x j) ∧
        (∀ j < m, (x j).value ≠ none) ∧ (x c).val = 1 ∧
        ∀ i < n, ∑ j ∈ Finset.range m, (R i j).val * (x j).val = 0) cs vs := by
  let _ := field b powi
  intro h
  obtain ⟨cs, vs, h1, h2, h3⟩ := C222_residual b powi hv h
  refine ⟨cs, vs, h1, h2, ((List.forall₂_and_left _ _).mpr ⟨fun c hc => (h2 c).mp hc, h3⟩).imp ?_⟩
  rintro c v ⟨⟨hc, hcl⟩, x, hx, hfin, hone, hsum⟩
  refine ⟨x, hx, hfin, hone, fun i hi => ?_⟩
  rw [hsum i hi]
  have huniq : ∀ {i j j'}, Leads m R i j → Leads m R i j' → j = j' := fun h h' =>
    Option.some.inj ((leadCol_iff.mpr h).symm.trans (leadCol_iff.mpr h'))
  have hother : ∀ j t, t ≠ i → LastLed n m R j t → (R i j).val = 0 := fun j t ht h =>
    hR.zero t j i h.1 h.2.1 hi (Ne.symm ht)
  by_cases hl : ∃ j, j < c ∧ Leads m R i j
  · obtain ⟨j, hj, hl⟩ := hl
    have hlast : LastLed n m R j i := ⟨hi, hl, fun t ht htn h' => by
      have a1 := hR.one t j htn h'
      rw [hR.zero i j t hi hl htn (by omega)] at a1
      norm_num at a1⟩
    rw [Finset.sum_eq_single_of_mem j (Finset.mem_range.mpr hj),
      Finset.sum_eq_single_of_mem i (Finset.mem_range.mpr hi), if_pos hlast, hR.one i j hi hl]
    · ring
    · intro t _ hne
      split
      · next h' => rw [hother j t hne h', zero_mul]
      · rfl
    · intro j' _ hne
      refine Finset.sum_eq_zero fun t _ => ?_
      split
      · next h' =>
        rw [hother j' t (fun ht => hne (huniq (ht ▸ h'.2.1) hl)) h', zero_mul]
      · rfl
  · have hz : (R i c).val = 0 := by
      refine hR.left i c hi hc fun k hk => ?_
      by_contra hne
      have hne' : ∃ k, k ≤ c ∧ epsilonEquals (R i k) zero = false := ⟨k, hk, by simpa using hne⟩
      classical
      have hs := Nat.find_spec hne'
      have hlead : Leads m R i (Nat.find hne') := ⟨by omega, hs.2, fun k' hk' => by
        have := Nat.find_min hne' hk'
        by_contra hh
        exact this ⟨by omega, by simpa using hh⟩⟩
      rcases hs.1.lt_or_eq with h' | h'
      · exact hl ⟨_, h', hlead⟩
      · rw [h'] at hlead
        exact hcl i hi hlead
    rw [hz, Finset.sum_eq_zero, sub_zero]
    intro j hj
    refine Finset.sum_eq_zero fun t _ => ?_
    split
    · next h' =>
      rw [hother j t (fun ht => hl ⟨j, Finset.mem_range.mp hj, ht ▸ h'.2.1⟩) h', zero_mul]
    · rfl

omit [Fmt] in
/-- The errors of two factorisations in turn, applied to a vector in the kernel. -/
theorem residual_two {n m : ℕ} {a l x : ℕ → ℚ} {B V R : ℕ → ℕ → ℚ} {g e g' e' : ℚ}
    (h1 : ∀ j < m, |a j - ∑ t ∈ Finset.range n, l t * B t j| ≤
      g * (∑ t ∈ Finset.range n, |l t * B t j|) + e)
    (h2 : ∀ t < n, ∀ j < m, |B t j - ∑ s ∈ Finset.range n, V t s * R s j| ≤
      g' * (∑ s ∈ Finset.range n, |V t s * R s j|) + e')
    (h3 : ∀ s < n, ∑ j ∈ Finset.range m, R s j * x j = 0) :
    |∑ j ∈ Finset.range m, a j * x j| ≤ ∑ j ∈ Finset.range m, |x j| *
      (g * (∑ t ∈ Finset.range n, |l t * B t j|) + e +
        ∑ t ∈ Finset.range n, |l t| * (g' * (∑ s ∈ Finset.range n, |V t s * R s j|) + e')) := by
  have hzero : ∑ j ∈ Finset.range m, (∑ t ∈ Finset.range n, l t * ∑ s ∈ Finset.range n, V t s * R s j) *
      x j = 0 := by
    have : ∀ j, (∑ t ∈ Finset.range n, l t * ∑ s ∈ Finset.range n, V t s * R s j) * x j =
        ∑ t ∈ Finset.range n, ∑ s ∈ Finset.range n, l t * V t s * (R s j * x j) := fun j => by
      rw [Finset.sum_mul]
      refine Finset.sum_congr rfl fun t _ => ?_
      rw [Finset.mul_sum, Finset.sum_mul]
      refine Finset.sum_congr rfl fun s _ => by ring
    simp only [this]
    rw [Finset.sum_comm]
    refine Finset.sum_eq_zero fun t _ => ?_
    rw [Finset.sum_comm]
    refine Finset.sum_eq_zero fun s hs => ?_
    rw [← Finset.mul_sum, h3 s (Finset.mem_range.mp hs), mul_zero]
  rw [← sub_zero (∑ j ∈ Finset.range m, a j * x j), ← hzero, ← Finset.sum_sub_distrib]
  refine (Finset.abs_sum_le_sum_abs _ _).trans (Finset.sum_le_sum fun j hj => ?_)
  have hj := Finset.mem_range.mp hj
  rw [← sub_mul, abs_mul, mul_comm]
  refine mul_le_mul_of_nonneg_left ?_ (abs_nonneg _)
  have e1 : a j - ∑ t ∈ Finset.range n, l t * ∑ s ∈ Finset.range n, V t s * R s j =
      (a j - ∑ t ∈ Finset.range n, l t * B t j) +
        ∑ t ∈ Finset.range n, l t * (B t j - ∑ s ∈ Finset.range n, V t s * R s j) := by
    simp only [mul_sub, Finset.sum_sub_distrib]
    ring
  rw [e1]
  refine (abs_add_le _ _).trans (add_le_add (h1 j hj) ((Finset.abs_sum_le_sum_abs _ _).trans
    (Finset.sum_le_sum fun t ht => ?_)))
  rw [abs_mul]
  exact mul_le_mul_of_nonneg_left (h2 t (Finset.mem_range.mp ht) j hj) (abs_nonneg _)

/-- The entries of a matrix given by a function. -/
theorem _root_.Verif.Mat.Has.over {M : Mat Flt} {n m : ℕ} {A : ℕ → ℕ → Flt} {P : Flt → Prop}
    (h : M.Has n m A) (hA : ∀ i j, i < n → j < m → P (A i j)) : M.Over P := by
  intro y hy
  obtain ⟨k, hk, rfl⟩ := List.getElem_of_mem hy
  rw [h.len] at hk
  have hm : 0 < m := Nat.pos_of_ne_zero fun h0 => by simp [h0] at hk
  have hkm := Nat.div_add_mod k m
  have := h.entry (k / m) (k % m) (Nat.div_lt_of_lt_mul (by rwa [mul_comm] at hk)) (Nat.mod_lt _ hm)
  rw [show k / m * m + k % m = k by rw [mul_comm]; exact hkm, List.getElem?_eq_getElem (by rw [h.len]; exact hk)] at this
  rw [Option.some.inj this]
  exact hA _ _ (Nat.div_lt_of_lt_mul (by rwa [mul_comm] at hk)) (Nat.mod_lt _ hm)

/-- The bound of `C222_kernel` for row `i`: the rounding errors of `row_echelon`, with the factor `l` of `lu` and its result
`B`, and of `to_rref`, with the factor `V` and its result `R`, weighted with the entries of the vector `x`. -/
def kernelBound (n m : ℕ) (l B R : ℕ → ℕ → Flt) (V : ℕ → ℕ → ℚ) (x : ℕ → Flt) (i : ℕ) : ℚ :=
  ∑ j ∈ Finset.range m, |(x j).val| *
    (((1 + 1 / 2 ^ prec) ^ (n + 7) - 1) * (∑ t ∈ Finset.range n, |(l i t).val * (B t j).val|) +
      (1 + 1 / 2 ^ prec) ^ n * (n + 2 * |(l i i).val|) * tiny +
      ∑ t ∈ Finset.range n, |(l i t).val| *
        (((1 + 1 / 2 ^ prec) ^ (n - 1) - 1) * (∑ s ∈ Finset.range n, |V t s * (R s j).val|) +
          (1 + 1 / 2 ^ prec) ^ (n - 1) * (n - 1 : ℕ) * tiny))

/-- C222. The residual of the kernel computed over `f32` and `f64`, in both builds: if the form returned by `row_echelon`
and `to_rref` is finite and exactly reduced, then for every vector `v` that `compute_kernel` returns the exact product of
`M` and `v` is bounded by the rounding errors of the two eliminations, weighted with `|v|`. -/
theorem C222_kernel (b : Build) (powi : Flt → Int → Flt) {M : Mat Flt} {A : ℕ → ℕ → Flt}
    (hA : ∀ i j, i < n → j < m → (A i j).Valid) (hnn : n * n < 18446744073709551616) :
    letI := field b powi
    M.Has n m A → ∀ f g, M.rowEchelon = .ok f → f.toRref = .ok g →
    ∃ (d : LU Flt) (π : Equiv.Perm (Fin n)) (l B R : ℕ → ℕ → Flt) (V : ℕ → ℕ → ℚ),
      M.lu = .ok d ∧ (∀ i j : Fin n, d.p.get i j = .ok (if π i = j then one else zero)) ∧
      d.l.Has n n l ∧ f.b.Has n m B ∧ g.b.Has n m R ∧
      (∀ i, V i i = 1) ∧ (∀ i t, t < i → V i t = 0) ∧
      ((∀ i j, i < n → j < m → (R i j).value ≠ none) → ExactlyReduced n m R →
        ∃ vs, g.computeKernel = .ok vs ∧ ∀ v ∈ vs, ∃ x : ℕ → Flt, v.Has m 1 (fun j _ => x j) ∧
          (∃ c < m, (x c).val = 1) ∧
          ∀ i : Fin n, (l i i).value ≠ none →
            |∑ j ∈ Finset.range m, (A (π i) j).val * (x j).val| ≤ kernelBound n m l B R V x i) := by
  let _ := field b powi
  intro h f g hf hg
  have T := tame b powi
  obtain ⟨d, hd, -⟩ := C225_lu h.shape hnn hf
  have hover : M.Over Valid := h.over hA
  have hc := closed_valid b powi
  have hfo := over_rowEchelon (fun x _ hx => eq_false_of_eps x (Res.ok.inj hx)) hc hover f hf
  have hgo := over_toRref hc.toClosedRing hfo g hg
  obtain ⟨π, l, B, Q, hp, hl, hB, hQ, key⟩ := C138_row_echelon b powi hA hnn h d f hd hf
  have hBv : ∀ i j, i < n → j < m → (B i j).Valid := fun i j hi hj =>
    hfo.2 _ (List.mem_of_getElem? (hB.entry i j hi hj))
  have hQv : ∀ i j, i < n → j < n → (Q i j).Valid := fun i j hi hj =>
    hfo.1 _ (List.mem_of_getElem? (hQ.entry i j hi hj))
  obtain ⟨V, R, Q', hR, hQ', hV1, hV0, hVR⟩ := (C139_to_rref b powi hBv hQv hB hQ).of_ok hg
  refine ⟨d, π, l, B, R, V, hd, hp, hl, hB, hR, hV1, hV0, fun hfin hred => ?_⟩
  obtain ⟨cs, vs, h1, h2, h3⟩ := C222_exact b powi (fun i j hi hj =>
    ⟨hgo.2 _ (List.mem_of_getElem? (hR.entry i j hi hj)), hfin i j hi hj⟩) hred hR
  refine ⟨vs, h1, fun v hv => ?_⟩
  obtain ⟨k, hk, rfl⟩ := List.getElem_of_mem hv
  have hkc : k < cs.length := by rw [h3.length_eq]; exact hk
  obtain ⟨x, hx, -, hone, hzero⟩ := h3.get hkc hk
  refine ⟨x, hx, ⟨_, ((h2 cs[k]).mp (List.getElem_mem hkc)).1, hone⟩, fun i hi => ?_⟩
  refine residual_two (fun j hj => ((key i hi).1 j hj ?_).2.2) (fun t ht j hj => ((hVR t ht).1 j hj
    (hfin t j ht hj)).2.2) hzero
  exact ((hVR i i.2).1 j hj (hfin i j i.2 hj)).1

end

/-- The matrix with the rows `(3, 1, 2)` and `(0, 3, 1)`. -/
def matKer : Mat Flt :=
  ⟨[fin false (3 * unit), one, fin false (2 * unit), zero, fin false (3 * unit), one], 2, 3⟩

/-- A form of `ExactlyReduced` that can be computed. -/
theorem ExactlyReduced.of_check {n m : ℕ} {R : ℕ → ℕ → Flt}
    (h1 : ∀ i, i < n → ∀ j, j < m → (epsilonEquals (R i j) Flt.zero = false ∧
      ∀ k, k < j → epsilonEquals (R i k) Flt.zero = true) →
        R i j = Flt.one ∧ ∀ t, t < n → t ≠ i → R t j = fin false 0 ∨ R t j = fin true 0)
    (h2 : ∀ i, i < n → ∀ j, j < m → (∀ k, k < j + 1 → epsilonEquals (R i k) Flt.zero = true) →
      R i j = fin false 0 ∨ R i j = fin true 0) : ExactlyReduced n m R where
  one i j hi hl := by rw [(h1 i hi j hl.1 hl.2).1, val_one]
  zero i j t hi hl ht hne := by
    rcases (h1 i hi j hl.1 hl.2).2 t ht hne with h | h <;> rw [h] <;> simp [val, value, units]
  left i j hi hj h := by
    rcases h2 i hi j hj (fun k hk => h k (by omega)) with h | h <;> rw [h] <;> simp [val, value, units]

/-- The entries of a `2 × 3` matrix. -/
def at23 (M : Mat Flt) (i j : ℕ) : Flt := M.entries.getD (i * 3 + j) nan

/-- The hypotheses of `C222_kernel`, computed. -/
def good23 (R : ℕ → ℕ → Flt) : Bool :=
  (List.range 2).all fun i => (List.range 3).all fun j =>
    (R i j).value.isSome &&
    ((!(!epsilonEquals (R i j) zero && (List.range j).all fun k => epsilonEquals (R i k) zero) ||
      (R i j == one && (List.range 2).all fun t => t == i || (R t j == fin false 0 || R t j == fin true 0))) &&
    (!((List.range (j + 1)).all fun k => epsilonEquals (R i k) zero) ||
      (R i j == fin false 0 || R i j == fin true 0)))

theorem good23_spec {R : ℕ → ℕ → Flt} (h : good23 R = true) :
    (∀ i j, i < 2 → j < 3 → (R i j).value ≠ none) ∧ ExactlyReduced 2 3 R := by
  have h' : ∀ i, i < 2 → ∀ j, j < 3 → _ := fun i hi j hj => by
    simpa using List.all_eq_true.mp (List.all_eq_true.mp h i (List.mem_range.mpr hi)) j
      (List.mem_range.mpr hj)
  refine ⟨fun i j hi hj he => ?_, .of_check (fun i hi j hj hl => ?_) fun i hi j hj hl => ?_⟩
  · have := (h' i hi j hj).1
    simp [he] at this
  · rcases (h' i hi j hj).2.1 with h | ⟨h1, h2⟩
    · rcases h with h | ⟨k, hk, hk'⟩
      · rw [hl.1] at h; cases h
      · rw [hl.2 k hk] at hk'; cases hk'
    · exact ⟨h1, fun t ht hne => (h2 t (by omega)).resolve_left hne⟩
  · rcases (h' i hi j hj).2.2 with ⟨k, hk, hk'⟩ | h
    · rw [hl k (by omega)] at hk'
      cases hk'
    · exact h

/-- The form of `matKer`. -/
def formKer (b : Build) : Res (Form Flt) :=
  letI := field b fun _ _ => nan
  matKer.rowEchelon >>= fun f => f.toRref

/-- The hypotheses hold for the rows `(3, 1, 2)` and `(0, 3, 1)`, in both formats and both builds: the form is finite and
exactly reduced; there is one vector, and its product with the second row, `1` minus `3` times a rounded third, is not
zero. -/
example (b : Build) : letI := field b fun _ _ => nan
    (∃ d, matKer.lu = .ok d) ∧ ∃ g, formKer b = .ok g ∧ g.b.Has 2 3 (at23 g.b) ∧
      (∀ i j, i < 2 → j < 3 → (at23 g.b i j).value ≠ none) ∧ ExactlyReduced 2 3 (at23 g.b) ∧
      ∃ x k, g.computeKernel = .ok [⟨[x, fin true k, one], 3, 1⟩] ∧ 3 * k ≠ unit := by
  let _ := field b fun _ _ => nan
  have hc : (match formKer b with
      | .ok g => decide (g.b.rows = 2 ∧ g.b.cols = 3 ∧ g.b.entries.length = 6) && (good23 (at23 g.b) &&
        (match g.computeKernel with
          | .ok [⟨[_, fin true k, y], 3, 1⟩] => 3 * k != unit && y == one
          | _ => false))
      | _ => false) = true := by
    cases b <;> fmt_decide
  have hd : (match matKer.lu with | .ok _ => true | _ => false) = true := by cases b <;> fmt_decide
  refine ⟨?_, ?_⟩
  · cases h : matKer.lu with
    | ok d => exact ⟨d, rfl⟩
    | panic p => rw [h] at hd; cases hd
    | diverge => rw [h] at hd; cases hd
  · cases h : formKer b with
    | ok g =>
      rw [h] at hc
      simp only [Bool.and_eq_true] at hc
      obtain ⟨h1, h2, c7⟩ := hc
      obtain ⟨c1, c2, c3⟩ := of_decide_eq_true h1
      obtain ⟨c4, c5⟩ := good23_spec h2
      refine ⟨g, rfl, ⟨c1, c2, c3, by norm_num, by norm_num, by norm_num, fun i j hi hj => ?_⟩,
        c4, c5, ?_⟩
      · rw [at23, List.getD_eq_getElem?_getD, List.getElem?_eq_getElem (by omega)]
        rfl
      · split at c7
        · next hv =>
          simp only [Bool.and_eq_true, bne_iff_ne, ne_eq, beq_iff_eq] at c7
          rw [c7.2] at hv
          exact ⟨_, _, hv, c7.1⟩
        · cases c7
    | panic p => rw [h] at hc; cases hc
    | diverge => rw [h] at hc; cases hc

end Flt
end Verif
