import Verif.Props.Mat

/-!
# Property C214: expressions of matrices

`MExpr` is the type of programs made of the constructors, operators and row operations of `Mat`.  Whatever the
expression, the result is its mathematical value; so the laws of matrix algebra hold for what the library returns.
-/

set_option linter.unusedSectionVars false

namespace Verif
open Res LawfulRField LinAlg

variable {F : Type} [RField F] {K : Type} [Field K] [LawfulRField F K]

/-- Programs that compute an `n × m` matrix. -/
inductive MExpr (F : Type) [RField F] (K : Type) [Field K] [LawfulRField F K] : ℕ → ℕ → Type
  | lit {n m : ℕ} (M : Mat F) (A : Matrix (Fin n) (Fin m) K) : MExpr F K n m
  | zero (n m : ℕ) : MExpr F K n m
  | identity (n : ℕ) : MExpr F K n n
  | permutation {n : ℕ} (s t : Fin n) : MExpr F K n n
  | scaleMat {n : ℕ} (i : Fin n) (x : F) : MExpr F K n n
  | add {n m : ℕ} (e₁ e₂ : MExpr F K n m) : MExpr F K n m
  | smul {n m : ℕ} (x : F) (e : MExpr F K n m) : MExpr F K n m
  | scale {n m : ℕ} (x : F) (e : MExpr F K n m) : MExpr F K n m
  | mul {n m q : ℕ} (e₁ : MExpr F K n m) (e₂ : MExpr F K m q) : MExpr F K n q
  | transpose {n m : ℕ} (e : MExpr F K n m) : MExpr F K m n
  | permuteRows {n m : ℕ} (s t : Fin n) (e : MExpr F K n m) : MExpr F K n m
  | scaleRow {n m : ℕ} (i : Fin n) (x : F) (e : MExpr F K n m) : MExpr F K n m
  | replaceRow {n m : ℕ} (s t : Fin n) (x : F) (e : MExpr F K n m) : MExpr F K n m

namespace MExpr

/-- What the library computes. -/
def run : {n m : ℕ} → MExpr F K n m → Res (Mat F)
  | _, _, lit M _ => .ok M
  | _, _, zero n m => .ok (Mat.zero n m)
  | _, _, identity n => .ok (Mat.identity n)
  | n, _, permutation s t => .ok (Mat.permutation n s t)
  | n, _, scaleMat i x => .ok (Mat.scaleMat n i x)
  | _, _, add e₁ e₂ => do Mat.add (← e₁.run) (← e₂.run)
  | _, _, smul x e => do Mat.smul (← e.run) x
  | _, _, scale x e => do Mat.scale (← e.run) x
  | _, _, mul e₁ e₂ => do Mat.mul (← e₁.run) (← e₂.run)
  | _, _, transpose e => do Mat.transpose (← e.run)
  | _, _, permuteRows s t e => do Mat.permuteRows (← e.run) s t
  | _, _, scaleRow i x e => do Mat.scaleRow (← e.run) i x
  | _, _, replaceRow s t x e => do Mat.replaceRow (← e.run) s t x

/-- The mathematical value. -/
def value : {n m : ℕ} → MExpr F K n m → Matrix (Fin n) (Fin m) K
  | _, _, lit _ A => A
  | _, _, zero _ _ => 0
  | _, _, identity _ => 1
  | _, _, permutation s t => (1 : Matrix _ _ K).submatrix (Equiv.swap s t) id
  | _, _, scaleMat i x => (1 : Matrix _ _ K).updateRow i (val x • (1 : Matrix _ _ K) i)
  | _, _, add e₁ e₂ => e₁.value + e₂.value
  | _, _, smul x e => (val x : K) • e.value
  | _, _, scale x e => (val x : K) • e.value
  | _, _, mul e₁ e₂ => e₁.value * e₂.value
  | _, _, transpose e => e.value.transpose
  | _, _, permuteRows s t e => e.value.submatrix (Equiv.swap s t) id
  | _, _, scaleRow i x e => e.value.updateRow i (val x • e.value i)
  | _, _, replaceRow s t x e => e.value.updateRow t (e.value t + val x • e.value s)

/-- The matrices put in are what they are said to be, and the sizes are numbers of the machine. -/
def Valid : {n m : ℕ} → MExpr F K n m → Prop
  | _, _, lit M A => M.Represents A
  | _, _, zero n m => n < 18446744073709551616 ∧ m < 18446744073709551616 ∧ n * m < 18446744073709551616
  | n, _, identity _ => n < 18446744073709551616 ∧ n * n < 18446744073709551616
  | n, _, permutation _ _ => n < 18446744073709551616 ∧ n * n < 18446744073709551616
  | n, _, scaleMat _ x => n < 18446744073709551616 ∧ n * n < 18446744073709551616 ∧ wf x
  | _, _, add e₁ e₂ => e₁.Valid ∧ e₂.Valid
  | _, _, smul x e => wf x ∧ e.Valid
  | _, _, scale x e => wf x ∧ e.Valid
  | n, q, mul e₁ e₂ => e₁.Valid ∧ e₂.Valid ∧ n * q < 18446744073709551616
  | _, _, transpose e => e.Valid
  | _, _, permuteRows _ _ e => e.Valid
  | _, _, scaleRow _ x e => wf x ∧ e.Valid
  | _, _, replaceRow _ _ x e => wf x ∧ e.Valid

end MExpr

/-- C214. Whatever is computed with the constructors, operators and row operations of `Mat`, the result is the
mathematical value of the expression, unless an operation of the coefficients fails. -/
theorem C214_expr {n m : ℕ} (e : MExpr F K n m) (h : e.Valid) :
    Spec (allowed F) e.run (fun R => R.Represents e.value) := by
  induction e with
  | lit M A => exact h
  | zero n m => exact C51_zero n m h.1 h.2.1 h.2.2
  | identity n => exact C51_identity n h.1 h.2
  | @permutation n s t =>
    refine (Mat.is_permutation h.1 h.2).represents fun i j => ?_
    rw [← swap_val]
    simp [MExpr.value, Matrix.one_apply, Fin.ext_iff]
  | @scaleMat n i x =>
    refine (Mat.is_scaleMat h.1 h.2.1 h.2.2).represents fun r c => ?_
    by_cases hr : r = i
    · subst hr
      by_cases hc : (r : ℕ) = c <;> simp [MExpr.value, Matrix.one_apply, Fin.ext_iff, hc]
    · have : (r : ℕ) ≠ i := fun h' => hr (Fin.ext h')
      simp [hr, this, MExpr.value, Matrix.one_apply, Fin.ext_iff]
  | add e₁ e₂ ih₁ ih₂ =>
    exact (ih₁ h.1).bind fun M hM => (ih₂ h.2).bind fun N hN => C52_add M N _ _ hM hN
  | smul x e ih => exact (ih h.2).bind fun M hM => (C52_smul M _ hM x h.1).1
  | scale x e ih => exact (ih h.2).bind fun M hM => (C52_smul M _ hM x h.1).2
  | mul e₁ e₂ ih₁ ih₂ =>
    exact (ih₁ h.1).bind fun M hM => (ih₂ h.2.1).bind fun N hN => C52_mul M N _ _ hM hN h.2.2
  | transpose e ih =>
    exact (ih h).bind fun M hM => (C53_transpose M _ hM).mono (fun _ h => h.elim) fun _ h => h
  | permuteRows s t e ih =>
    refine (ih h).bind fun M hM => (hM.is.permuteRows s.2 t.2).imp fun R hR => hR.represents fun r c => ?_
    rw [← swap_val, matExt_fin]; rfl
  | scaleRow i x e ih =>
    refine (ih h.2).bind fun M hM => (hM.is.scaleRow i.2 h.1).imp fun R hR => hR.represents fun r c => ?_
    by_cases hr : r = i
    · subst hr; simp [matExt_fin, MExpr.value]
    · have : (r : ℕ) ≠ i := fun h' => hr (Fin.ext h')
      simp [hr, this, matExt_fin, MExpr.value]
  | replaceRow s t x e ih =>
    refine (ih h.2).bind fun M hM => (hM.is.replaceRow s.2 t.2 h.1).imp fun R hR => hR.represents fun r c => ?_
    by_cases hr : r = t
    · subst hr; simp [matExt_fin, mul_comm, MExpr.value]
    · have : (r : ℕ) ≠ t := fun h' => hr (Fin.ext h')
      simp [hr, this, matExt_fin, MExpr.value]

/-- Two matrices of the program whose entries have the same values. -/
def Mat.Same (K : Type) [Field K] [LawfulRField F K] (M N : Mat F) : Prop :=
  M.rows = N.rows ∧ M.cols = N.cols ∧ M.entries.length = N.entries.length ∧
    ∀ (k : ℕ) (x y : F), M.entries[k]? = some x → N.entries[k]? = some y → (val x : K) = val y

theorem Mat.Represents.same {n m : ℕ} {M N : Mat F} {A : Matrix (Fin n) (Fin m) K} (hM : M.Represents A)
    (hN : N.Represents A) : Mat.Same K M N := by
  refine ⟨hM.rows.trans hN.rows.symm, hM.cols.trans hN.cols.symm, hM.len.trans hN.len.symm, fun k x y hx hy => ?_⟩
  have hk : k < n * m := by
    rw [← hM.len]
    exact (List.getElem?_eq_some_iff.mp hx).1
  have hm : 0 < m := Nat.pos_of_ne_zero fun h => by subst h; omega
  have h1 : k / m < n := Nat.div_lt_of_lt_mul (by rwa [mul_comm])
  obtain ⟨x', hx', -, ex⟩ := hM.entry ⟨k / m, h1⟩ ⟨k % m, Nat.mod_lt _ hm⟩
  obtain ⟨y', hy', -, ey⟩ := hN.entry ⟨k / m, h1⟩ ⟨k % m, Nat.mod_lt _ hm⟩
  rw [show k / m * m + k % m = k from Nat.div_add_mod' k m] at hx' hy'
  rw [hx] at hx'
  rw [hy] at hy'
  cases hx'
  cases hy'
  rw [ex, ey]

/-- C214, laws: two expressions whose values agree by a law of matrix algebra compute matrices of the same size with
entries of the same values, unless an operation of the coefficients fails. -/
theorem C214_law {n m : ℕ} (e e' : MExpr F K n m) (h : e.Valid) (h' : e'.Valid) (hv : e.value = e'.value) :
    Spec (allowed F) (do
      let R ← e.run
      let R' ← e'.run
      pure (R, R')) (fun x => Mat.Same K x.1 x.2) :=
  (C214_expr e h).bind fun _ hR => (C214_expr e' h').bind fun _ hR' => hR.same (hv ▸ hR')

/-- C214, laws over exact fields: both expressions compute the same matrix, entry by entry. -/
theorem C214_exact (K : Type) [Field K] [DecidableEq K] :
    letI := exactField .debug K
    letI := exactLawful K
    ∀ {n m : ℕ} (e e' : MExpr K K n m), e.Valid → e'.Valid → e.value = e'.value →
      ∃ R, e.run = .ok R ∧ e'.run = .ok R := by
  let _ := exactField .debug K
  let _ := exactLawful K
  intro n m e e' h h' hv
  obtain ⟨R, hR, hS⟩ := (C214_expr e h).total
  obtain ⟨R', hR', hS'⟩ := (C214_expr e' h').total
  refine ⟨R, hR, hR'.trans (congrArg Res.ok ?_)⟩
  obtain ⟨h1, h2, h3, h4⟩ := hS'.same (hv ▸ hS)
  rcases R with ⟨l, r, c⟩
  rcases R' with ⟨l', r', c'⟩
  obtain rfl : r' = r := h1
  obtain rfl : c' = c := h2
  congr 1
  refine List.ext_getElem h3 fun k hk hk' => ?_
  exact h4 k _ _ (List.getElem?_eq_getElem hk) (List.getElem?_eq_getElem hk')

section
variable {n m q s : ℕ}

/-- C214, spelled out: the laws of matrix algebra over exact fields, for the operators as they are called. -/
theorem C214_laws (K : Type) [Field K] [DecidableEq K] :
    letI := exactField .debug K
    letI := exactLawful K
    ∀ {n m q s : ℕ} {M M' M'' : Mat K} {N N' : Mat K} {P : Mat K} {A A' A'' : Matrix (Fin n) (Fin m) K}
      {B B' : Matrix (Fin m) (Fin q) K} {C : Matrix (Fin q) (Fin s) K} (x : K),
      M.Represents A → M'.Represents A' → M''.Represents A'' → N.Represents B → N'.Represents B' → P.Represents C →
      n * q < 18446744073709551616 → m * s < 18446744073709551616 → n * s < 18446744073709551616 →
      n * n < 18446744073709551616 →
      (do let X ← M.add M'; X.add M'') = (do let Y ← M'.add M''; M.add Y) ∧
      (do let X ← M.mul N; X.mul P) = (do let Y ← N.mul P; M.mul Y) ∧
      (do let Y ← N.add N'; M.mul Y) = (do let X ← M.mul N; let Y ← M.mul N'; X.add Y) ∧
      (do let Y ← M.add M'; Y.mul N) = (do let X ← M.mul N; let Y ← M'.mul N; X.add Y) ∧
      (do let X ← M.smul x; X.mul N) = (do let X ← M.mul N; X.smul x) ∧
      (do let Y ← N.smul x; M.mul Y) = (do let X ← M.mul N; X.smul x) ∧
      (do let X ← M.mul N; X.transpose) = (do let Y ← N.transpose; let X ← M.transpose; Y.mul X) ∧
      (Mat.identity n).mul M = .ok M ∧ (Mat.zero n m).add M = .ok M := by
  let _ := exactField .debug K
  let _ := exactLawful K
  intro n m q s M M' M'' N N' P A A' A'' B B' C x hM hM' hM'' hN hN' hP hnq hms hns hnn
  have key : ∀ {n m : ℕ} (e e' : MExpr K K n m), e.Valid → e'.Valid → e.value = e'.value → e.run = e'.run :=
    fun e e' h h' hv => by
      obtain ⟨R, h1, h2⟩ := C214_exact K e e' h h' hv
      rw [h1, h2]
  have hqn : q * n < 18446744073709551616 := by rwa [mul_comm]
  refine ⟨key (.add (.add (.lit M A) (.lit M' A')) (.lit M'' A'')) (.add (.lit M A) (.add (.lit M' A') (.lit M'' A'')))
      ⟨⟨hM, hM'⟩, hM''⟩ ⟨hM, hM', hM''⟩ (add_assoc _ _ _),
    key (.mul (.mul (.lit M A) (.lit N B)) (.lit P C)) (.mul (.lit M A) (.mul (.lit N B) (.lit P C)))
      ⟨⟨hM, hN, hnq⟩, hP, hns⟩ ⟨hM, ⟨hN, hP, hms⟩, hns⟩ (Matrix.mul_assoc _ _ _),
    key (.mul (.lit M A) (.add (.lit N B) (.lit N' B'))) (.add (.mul (.lit M A) (.lit N B)) (.mul (.lit M A) (.lit N' B')))
      ⟨hM, ⟨hN, hN'⟩, hnq⟩ ⟨⟨hM, hN, hnq⟩, hM, hN', hnq⟩ (Matrix.mul_add _ _ _),
    key (.mul (.add (.lit M A) (.lit M' A')) (.lit N B)) (.add (.mul (.lit M A) (.lit N B)) (.mul (.lit M' A') (.lit N B)))
      ⟨⟨hM, hM'⟩, hN, hnq⟩ ⟨⟨hM, hN, hnq⟩, hM', hN, hnq⟩ (Matrix.add_mul _ _ _),
    key (.mul (.smul x (.lit M A)) (.lit N B)) (.smul x (.mul (.lit M A) (.lit N B)))
      ⟨⟨trivial, hM⟩, hN, hnq⟩ ⟨trivial, hM, hN, hnq⟩ (Matrix.smul_mul _ _ _),
    key (.mul (.lit M A) (.smul x (.lit N B))) (.smul x (.mul (.lit M A) (.lit N B)))
      ⟨hM, ⟨trivial, hN⟩, hnq⟩ ⟨trivial, hM, hN, hnq⟩ (Matrix.mul_smul _ _ _),
    key (.transpose (.mul (.lit M A) (.lit N B))) (.mul (.transpose (.lit N B)) (.transpose (.lit M A)))
      ⟨hM, hN, hnq⟩ ⟨hN, hM, hqn⟩ (Matrix.transpose_mul _ _),
    key (.mul (.identity n) (.lit M A)) (.lit M A) ⟨⟨hM.rows_lt, hnn⟩, hM, hM.len_lt⟩ hM (Matrix.one_mul _),
    key (.add (.zero n m) (.lit M A)) (.lit M A) ⟨⟨hM.rows_lt, hM.cols_lt, hM.len_lt⟩, hM⟩ hM (zero_add _)⟩

end

/-- The value of `(1 2; 3 4)ᵀ · (1 2; 3 4)` with its rows exchanged, over `Rational`. -/
example : letI := Rational.field .debug
    letI := Rational.lawful
    ∃ e : MExpr Rational ℚ 2 2, e.Valid ∧ e.run = .ok (ratMat 2 2 [14, 20, 10, 14]) := by
  let _ := Rational.field .debug
  let _ := Rational.lawful
  obtain ⟨A, h⟩ : ∃ A : Matrix (Fin 2) (Fin 2) ℚ, (ratMat 2 2 [1, 2, 3, 4]).Represents A :=
    ⟨_, ratMat_represents 2 2 _ rfl (by decide) (by decide) (by decide)⟩
  refine ⟨.permuteRows 0 1 (.mul (.transpose (.lit (ratMat 2 2 [1, 2, 3, 4]) A)) (.lit (ratMat 2 2 [1, 2, 3, 4]) A)), ?_,
    ?_⟩
  · simp only [MExpr.Valid]
    exact ⟨h, h, by decide⟩
  · change (((ratMat 2 2 [1, 2, 3, 4]).transpose >>= fun M => M.mul (ratMat 2 2 [1, 2, 3, 4])) >>=
      fun R => R.permuteRows 0 1) = _
    decide +kernel

end Verif
