import Verif.Leads.Velocity
import Mathlib.LinearAlgebra.Matrix.Block
import Mathlib.LinearAlgebra.Lagrange
import Mathlib.Analysis.Matrix.Order
import Mathlib.Analysis.Complex.Order

/-!
C154: what `phs_symmetrization` (kwant/physics/leads.py l.466-608) returns.
-/

set_option linter.unusedSectionVars false

namespace Kwant.Leads
open Matrix Complex

variable {n : ℕ}

/-! ### Complex conjugation of matrices -/

/-- The complex conjugate of a matrix. -/
def conjM {a b : Type} (m : Matrix a b ℂ) : Matrix a b ℂ := m.map (starRingEnd ℂ)

theorem conjM_mul {a b c : Type} [Fintype b] (m : Matrix a b ℂ) (m' : Matrix b c ℂ) : conjM (m * m') = conjM m * conjM m' := by
  rw [conjM, Matrix.map_mul]; rfl

theorem conjM_cj {a b : Type} (m : Matrix a b ℂ) : conjM (conjM m) = m := by
  ext i j
  simp [conjM]

theorem conjM_one {a : Type} [DecidableEq a] : conjM (1 : Matrix a a ℂ) = 1 := by
  ext i j
  simp [conjM, one_apply, apply_ite]

theorem conjM_neg {a b : Type} (m : Matrix a b ℂ) : conjM (-m) = -conjM m := by
  ext i j
  simp [conjM]

theorem conjM_add {a b : Type} (m m' : Matrix a b ℂ) : conjM (m + m') = conjM m + conjM m' := by
  ext i j
  simp [conjM]

theorem conjM_sub {a b : Type} (m m' : Matrix a b ℂ) : conjM (m - m') = conjM m - conjM m' := by
  ext i j
  simp [conjM]

theorem conjM_conjTranspose {a b : Type} (m : Matrix a b ℂ) : conjM mᴴ = mᵀ := by
  ext i j
  simp [conjM]

theorem conjM_transpose {a b : Type} (m : Matrix a b ℂ) : (conjM m)ᵀ = mᴴ := by
  ext i j
  simp [conjM]

theorem conjM_herm {a b : Type} (m : Matrix a b ℂ) : (conjM m)ᴴ = mᵀ := by
  ext i j
  simp [conjM]

theorem pdot_eq (ph : Matrix (Fin n) (Fin n) ℂ) {k : ℕ} (w : Matrix (Fin n) (Fin k) ℂ) : pdot ph w = ph * conjM w := rfl

/-! ### Projectors -/

open scoped ComplexOrder in
theorem eq_zero_of_trace {a b : Type} [Fintype a] [Fintype b] {m : Matrix a b ℂ} (h : (mᴴ * m).trace = 0) : m = 0 :=
  Matrix.trace_conjTranspose_mul_self_eq_zero_iff.mp h

theorem eq_zero_of_mul {a b : Type} [Fintype a] [Fintype b] {m : Matrix a b ℂ} (h : mᴴ * m = 0) : m = 0 :=
  eq_zero_of_trace (by rw [h, trace_zero])

/-- A projector that is contained in another one of the same rank is equal to it. -/
theorem proj_eq {a : Type} [Fintype a] [DecidableEq a] {p q : Matrix a a ℂ} (hp : pᴴ = p) (hpp : p * p = p) (hq : qᴴ = q) (hqq : q * q = q) (hqp : q * p = p) (ht : p.trace = q.trace) :
    p = q := by
  have hpq : p * q = p := by
    have := congrArg conjTranspose hqp
    rwa [conjTranspose_mul, hp, hq] at this
  have : (q - p)ᴴ * (q - p) = q - p := by
    rw [conjTranspose_sub, hp, hq, Matrix.sub_mul, Matrix.mul_sub, Matrix.mul_sub, hqq, hqp, hpq, hpp]
    abel
  have h0 := eq_zero_of_trace (m := q - p) (by rw [this, trace_sub, ht, sub_self])
  exact (sub_eq_zero.mp h0).symm

theorem gram_proj {k : ℕ} {w : Matrix (Fin n) (Fin k) ℂ} (hw : wᴴ * w = 1) : (w * wᴴ)ᴴ = w * wᴴ ∧ w * wᴴ * (w * wᴴ) = w * wᴴ ∧ (w * wᴴ).trace = k := by
  refine ⟨?_, ?_, ?_⟩
  · rw [conjTranspose_mul, conjTranspose_conjTranspose]
  · rw [Matrix.mul_assoc, ← Matrix.mul_assoc wᴴ, hw, Matrix.one_mul]
  · rw [trace_mul_comm, hw, trace_one, Fintype.card_fin]

theorem le_of_gram {k : ℕ} {w : Matrix (Fin n) (Fin k) ℂ} (hw : wᴴ * w = 1) : k ≤ n := by
  refine le_of_inj (a := w) fun c hc => ?_
  have : (wᴴ * w) *ᵥ c = 0 := by rw [← mulVec_mulVec, hc, mulVec_zero]
  rwa [hw, one_mulVec] at this

/-! ### A matrix with one more column -/

/-- The matrix with the column `x` in front of the columns of `w`. -/
def consCol {k : ℕ} (x : Matrix (Fin n) (Fin 1) ℂ) (w : Matrix (Fin n) (Fin k) ℂ) : Matrix (Fin n) (Fin (k + 1)) ℂ :=
  of fun i j => Fin.cases (motive := fun _ => ℂ) (x i 0) (w i) j

theorem consCol_zero {k : ℕ} (x : Matrix (Fin n) (Fin 1) ℂ) (w : Matrix (Fin n) (Fin k) ℂ) (i : Fin n) : consCol x w i 0 = x i 0 := rfl

theorem consCol_succ {k : ℕ} (x : Matrix (Fin n) (Fin 1) ℂ) (w : Matrix (Fin n) (Fin k) ℂ) (i : Fin n) (j : Fin k) : consCol x w i j.succ = w i j := rfl

theorem consCol_split {k : ℕ} (w : Matrix (Fin n) (Fin (k + 1)) ℂ) : w = consCol (of fun i _ => w i 0) (w.submatrix id Fin.succ) := by
  ext i j
  induction j using Fin.cases with
  | zero => rfl
  | succ j => rfl

theorem consCol_mul_conj {k : ℕ} (x : Matrix (Fin n) (Fin 1) ℂ) (w : Matrix (Fin n) (Fin k) ℂ) : consCol x w * (consCol x w)ᴴ = x * xᴴ + w * wᴴ := by
  ext i j
  rw [Matrix.mul_apply, Fin.sum_univ_succ, Matrix.add_apply, Matrix.mul_apply, Matrix.mul_apply, Fin.sum_univ_one]
  rfl

theorem consCol_gram {k : ℕ} (x : Matrix (Fin n) (Fin 1) ℂ) (w : Matrix (Fin n) (Fin k) ℂ) :
    (consCol x w)ᴴ * consCol x w = 1 ↔ xᴴ * x = 1 ∧ wᴴ * x = 0 ∧ wᴴ * w = 1 := by
  have e00 : ((consCol x w)ᴴ * consCol x w) 0 0 = (xᴴ * x) 0 0 := rfl
  have es0 : ∀ j, ((consCol x w)ᴴ * consCol x w) (Fin.succ j) 0 = (wᴴ * x) j 0 := fun j => rfl
  have ess : ∀ i j, ((consCol x w)ᴴ * consCol x w) (Fin.succ i) (Fin.succ j) = (wᴴ * w) i j := fun i j => rfl
  have e0s : ∀ j, ((consCol x w)ᴴ * consCol x w) 0 (Fin.succ j) = (xᴴ * w) 0 j := fun j => rfl
  constructor
  · intro h
    refine ⟨?_, ?_, ?_⟩
    · ext i j
      rw [Subsingleton.elim i 0, Subsingleton.elim j 0, ← e00, h, one_apply_eq, one_apply_eq]
    · ext i j
      rw [Subsingleton.elim j 0, ← es0, h, one_apply_ne (Fin.succ_ne_zero i)]
      rfl
    · ext i j
      rw [← ess, h, one_apply, one_apply]
      simp only [Fin.succ_inj]
  · rintro ⟨h1, h2, h3⟩
    have h2' : xᴴ * w = 0 := by
      have := congrArg conjTranspose h2
      rwa [conjTranspose_mul, conjTranspose_conjTranspose, conjTranspose_zero] at this
    ext i j
    induction i using Fin.cases with
    | zero =>
      induction j using Fin.cases with
      | zero => rw [e00, h1, one_apply_eq, one_apply_eq]
      | succ j => rw [e0s, h2', one_apply_ne (Fin.succ_ne_zero j).symm]; rfl
    | succ i =>
      induction j using Fin.cases with
      | zero => rw [es0, h2, one_apply_ne (Fin.succ_ne_zero i)]; rfl
      | succ j => rw [ess, h3, one_apply, one_apply]; simp only [Fin.succ_inj]

theorem ofFn_consCol {k : ℕ} (x : Matrix (Fin n) (Fin 1) ℂ) (w : Matrix (Fin n) (Fin k) ℂ) : List.ofFn (consCol x w).col = x.col 0 :: List.ofFn w.col := by
  rw [List.ofFn_succ]
  rfl

/-! ### `P^2 = -1` -/

/-- Removal of a redundant column after the QR decomposition with column pivoting. -/
theorem qrPivot_rank {e : ModeNum n} (he : e.PhsOk) {k : ℕ} (a : Matrix (Fin n) (Fin (k + 1)) ℂ) (hk : k + 1 ≤ n) {c : Fin (k + 1) → ℂ} (hc : c ≠ 0) (hac : a *ᵥ c = 0) :
    let q := (e.qrPivot a).submatrix id Fin.castSucc
    qᴴ * q = 1 ∧ q * qᴴ * a = a := by
  intro q
  obtain ⟨h1, σ, t, h2, h3, h4⟩ := he.qrPivot a hk
  have hlast : t (Fin.last k) (Fin.last k) = 0 := by
    by_contra hne
    have hdiag : ∀ i, t i i ≠ 0 := by
      intro i h0
      have := h4 i (Fin.last k) (Fin.le_last i)
      rw [h0, norm_zero, norm_le_zero_iff] at this
      exact hne this
    have hdet : IsUnit t.det := by
      have : t.det = ∏ i, t i i := Matrix.det_of_isUpperTriangular (fun i j hij => h3 i j hij)
      rw [this, isUnit_iff_ne_zero, Finset.prod_ne_zero_iff]
      exact fun i _ => hdiag i
    have hz : a.submatrix id σ *ᵥ (c ∘ σ) = 0 := by
      rw [← hac]
      ext x
      simp only [mulVec, dotProduct, submatrix_apply, id_eq, Function.comp_apply]
      exact Equiv.sum_comp σ fun j => a x j * c j
    have h5 : t *ᵥ (c ∘ σ) = 0 := by
      have : ((e.qrPivot a)ᴴ * (e.qrPivot a * t)) *ᵥ (c ∘ σ) = 0 := by
        rw [← h2, ← mulVec_mulVec, hz, mulVec_zero]
      rwa [← Matrix.mul_assoc, h1, Matrix.one_mul] at this
    have h6 : c ∘ σ = 0 := by
      have : (t⁻¹ * t) *ᵥ (c ∘ σ) = 0 := by rw [← mulVec_mulVec, h5, mulVec_zero]
      rwa [Matrix.nonsing_inv_mul _ hdet, one_mulVec] at this
    apply hc
    ext i
    have := congrFun h6 (σ.symm i)
    simpa using this
  have hrow : ∀ j, t (Fin.last k) j = 0 := by
    intro j
    rcases eq_or_lt_of_le (Fin.le_last j) with h0 | h0
    · rw [h0]; exact hlast
    · exact h3 _ _ h0
  have hqq : qᴴ * q = 1 := by
    ext i j
    have := congrFun (congrFun h1 i.castSucc) j.castSucc
    rw [one_apply] at this
    rw [one_apply]
    simp only [Fin.castSucc_inj] at this
    exact this
  refine ⟨hqq, ?_⟩
  have hqt : a.submatrix id σ = q * t.submatrix Fin.castSucc id := by
    rw [h2]
    ext x j
    rw [Matrix.mul_apply, Fin.sum_univ_castSucc, hrow, mul_zero, add_zero, Matrix.mul_apply]
    rfl
  have h7 : q * qᴴ * a.submatrix id σ = a.submatrix id σ := by
    rw [hqt, Matrix.mul_assoc, ← Matrix.mul_assoc qᴴ, hqq, Matrix.one_mul]
  ext x j
  have := congrFun (congrFun h7 x) (σ.symm j)
  simp only [submatrix_apply, id_eq, Equiv.apply_symm_apply] at this
  rw [← this, Matrix.mul_apply, Matrix.mul_apply]
  simp

/-- The first column of the wave functions, its partner, and the projector on the remaining space. -/
theorem pairStep {ph : Matrix (Fin n) (Fin n) ℂ} (hph : phᴴ * ph = 1) {k : ℕ} {w : Matrix (Fin n) (Fin (k + 2)) ℂ} (hw : wᴴ * w = 1)
    (hcl : ph * conjM (w * wᴴ) = w * wᴴ * ph) (hsq : ph * conjM ph * w = -w) {x y : Matrix (Fin n) (Fin 1) ℂ} {w' : Matrix (Fin n) (Fin (k + 1)) ℂ} {p : Matrix (Fin n) (Fin n) ℂ}
    (hx : x = of fun i _ => w i 0) (hw' : w' = w.submatrix id Fin.succ) (hy : y = ph * conjM x) (hp : p = w' * w'ᴴ - y * yᴴ) :
    xᴴ * x = 1 ∧ yᴴ * y = 1 ∧ yᴴ * x = 0 ∧ w * wᴴ = x * xᴴ + y * yᴴ + p ∧ p * x = 0 ∧ p * y = 0 ∧ pᴴ = p ∧ p * p = p ∧ p.trace = k ∧
      ph * conjM p = p * ph ∧ ph * conjM ph * p = -p ∧ w'ᴴ * w' = 1 ∧ p * (w' * w'ᴴ) = p ∧ w' * w'ᴴ * y = y := by
  have hsplit : w = consCol x w' := by rw [hx, hw']; exact consCol_split w
  have hW := hw
  rw [hsplit, consCol_gram] at hW
  obtain ⟨g1, g2, g3⟩ := hW
  have hP : w * wᴴ = x * xᴴ + w' * w'ᴴ := by
    conv_lhs => rw [hsplit]
    rw [consCol_mul_conj]
  have hPx : w * wᴴ * x = x := by
    rw [hP, Matrix.add_mul, Matrix.mul_assoc, g1, Matrix.mul_one, Matrix.mul_assoc, g2, Matrix.mul_zero, add_zero]
  have hPy : w * wᴴ * y = y := by
    rw [hy, ← Matrix.mul_assoc, ← hcl, Matrix.mul_assoc, ← conjM_mul, hPx]
  have hsqP : ph * conjM ph * (w * wᴴ) = -(w * wᴴ) := by
    rw [← Matrix.mul_assoc, hsq, Matrix.neg_mul]
  have hsqx : ph * conjM ph * x = -x := by
    calc ph * conjM ph * x = ph * conjM ph * (w * wᴴ * x) := by rw [hPx]
      _ = -x := by rw [← Matrix.mul_assoc, hsqP, Matrix.neg_mul, hPx]
  have hyy : yᴴ * y = 1 := by
    rw [hy, conjTranspose_mul, Matrix.mul_assoc, ← Matrix.mul_assoc phᴴ, hph, Matrix.one_mul]
    have := congrArg conjM g1
    rw [conjM_mul, conjM_one] at this
    rw [← this]
    congr 1
  have hPy2 : ph * conjM y = -x := by
    rw [hy, conjM_mul, conjM_cj, ← Matrix.mul_assoc, hsqx]
  have hyx : yᴴ * x = 0 := by
    -- the number is equal to minus itself
    have h1 : conjM (xᴴ * y) = yᴴ * (ph * conjM y) := by
      have e1 : yᴴ = conjM xᴴ * phᴴ := by
        rw [hy, conjTranspose_mul]
        rfl
      rw [e1, Matrix.mul_assoc, ← Matrix.mul_assoc phᴴ, hph, Matrix.one_mul, conjM_mul]
    rw [hPy2, Matrix.mul_neg] at h1
    have h2 : conjM (xᴴ * y) = yᴴ * x := by
      ext i j
      rw [Subsingleton.elim i 0, Subsingleton.elim j 0]
      have := congrFun (congrFun (conjTranspose_mul xᴴ y) 0) 0
      rw [conjTranspose_conjTranspose] at this
      exact this
    rw [h2] at h1
    have := congrArg (· + yᴴ * x) h1
    simp only [neg_add_cancel] at this
    rw [← two_smul ℂ] at this
    exact (smul_eq_zero.mp this).resolve_left two_ne_zero
  have hxy : xᴴ * y = 0 := by
    have := congrArg conjTranspose hyx
    rwa [conjTranspose_mul, conjTranspose_conjTranspose, conjTranspose_zero] at this
  have hwy : w' * w'ᴴ * y = y := by
    have := hPy
    rw [hP, Matrix.add_mul, Matrix.mul_assoc x, hxy, Matrix.mul_zero, zero_add] at this
    exact this
  have hyw : yᴴ * (w' * w'ᴴ) = yᴴ := by
    have := congrArg conjTranspose hwy
    rwa [conjTranspose_mul, (gram_proj g3).1] at this
  have hph' : pᴴ = p := by
    rw [hp, conjTranspose_sub, (gram_proj g3).1, conjTranspose_mul, conjTranspose_conjTranspose]
  have hpw : p * (w' * w'ᴴ) = p := by
    rw [hp, Matrix.sub_mul, (gram_proj g3).2.1, Matrix.mul_assoc y, hyw]
  have hpy : p * y = 0 := by
    rw [hp, Matrix.sub_mul, hwy, Matrix.mul_assoc, hyy, Matrix.mul_one, sub_self]
  have hpx : p * x = 0 := by
    rw [hp, Matrix.sub_mul, Matrix.mul_assoc, g2, Matrix.mul_zero, Matrix.mul_assoc, hyx, Matrix.mul_zero, sub_zero]
  have hpp : p * p = p := by
    have : p * p = p * (w' * w'ᴴ - y * yᴴ) := congrArg (p * ·) hp
    rw [this, Matrix.mul_sub, hpw, ← Matrix.mul_assoc, hpy, Matrix.zero_mul, sub_zero]
  have hpt : p.trace = k := by
    rw [hp, trace_sub, (gram_proj g3).2.2, (gram_proj hyy).2.2]
    push_cast
    ring
  have hPp : w * wᴴ = x * xᴴ + y * yᴴ + p := by rw [hP, hp]; abel
  have hclp : ph * conjM p = p * ph := by
    have e1 : yᴴ * ph = xᵀ := by
      rw [hy, conjTranspose_mul, Matrix.mul_assoc, hph, Matrix.mul_one, conjM_herm]
    have e2 : xᴴ * ph = -yᵀ := by
      have h1 : conjM ph * x = -(phᴴ * x) := by
        have := congrArg (phᴴ * ·) hsqx
        beta_reduce at this
        rwa [Matrix.mul_assoc, ← Matrix.mul_assoc phᴴ, hph, Matrix.one_mul, Matrix.mul_neg] at this
      have h2 := congrArg conjTranspose h1
      rw [conjTranspose_mul, conjTranspose_neg, conjTranspose_mul, conjTranspose_conjTranspose, conjM_herm] at h2
      rw [hy, transpose_mul, conjM_transpose, h2, neg_neg]
    have e3 : ph * conjM (x * xᴴ) = y * yᴴ * ph := by
      rw [conjM_mul, conjM_conjTranspose, Matrix.mul_assoc y, e1, hy, Matrix.mul_assoc]
    have e4 : ph * conjM (y * yᴴ) = x * xᴴ * ph := by
      rw [conjM_mul, conjM_conjTranspose, ← Matrix.mul_assoc, hPy2, Matrix.mul_assoc x, e2, Matrix.neg_mul, Matrix.mul_neg]
    have e5 : p = w * wᴴ - x * xᴴ - y * yᴴ := by rw [hPp]; abel
    rw [e5, conjM_sub, conjM_sub, Matrix.mul_sub, Matrix.mul_sub, e3, e4, hcl, Matrix.sub_mul, Matrix.sub_mul]
    abel
  have hsqp : ph * conjM ph * p = -p := by
    have : w * wᴴ * p = p := by
      rw [hPp, Matrix.add_mul, Matrix.add_mul, hpp]
      have e1 : xᴴ * p = 0 := by
        have := congrArg conjTranspose hpx
        rwa [conjTranspose_mul, hph', conjTranspose_zero] at this
      have e2 : yᴴ * p = 0 := by
        have := congrArg conjTranspose hpy
        rwa [conjTranspose_mul, hph', conjTranspose_zero] at this
      rw [Matrix.mul_assoc, e1, Matrix.mul_zero, Matrix.mul_assoc, e2, Matrix.mul_zero, zero_add, zero_add]
    calc ph * conjM ph * p = ph * conjM ph * (w * wᴴ * p) := by rw [this]
      _ = -p := by rw [← Matrix.mul_assoc, hsqP, Matrix.neg_mul, this]
  exact ⟨g1, hyy, hyx, hPp, hpx, hpy, hph', hpp, hpt, hclp, hsqp, g3, hpw, hwy⟩

/-- The result for the first two wave functions together with the result for the others. -/
theorem pairJoin {ph : Matrix (Fin n) (Fin n) ℂ} {k : ℕ} {x y : Matrix (Fin n) (Fin 1) ℂ} {p : Matrix (Fin n) (Fin n) ℂ} (hy : y = ph * conjM x)
    (g1 : xᴴ * x = 1) (hyy : yᴴ * y = 1) (hyx : yᴴ * x = 0) (hpx : p * x = 0) (hpy : p * y = 0) (hph' : pᴴ = p) (V' : Matrix (Fin n) (Fin k) ℂ) (i1 : V'ᴴ * V' = 1)
    (i2 : V' * V'ᴴ = p) (i3 : ∀ i (h : 2 * i + 1 < k), V'.col ⟨2 * i + 1, h⟩ = ph *ᵥ star (V'.col ⟨2 * i, by omega⟩)) :
    ∃ V : Matrix (Fin n) (Fin (k + 2)) ℂ, x.col 0 :: y.col 0 :: List.ofFn V'.col = List.ofFn V.col ∧ Vᴴ * V = 1 ∧ V * Vᴴ = x * xᴴ + y * yᴴ + p ∧
      ∀ i (h : 2 * i + 1 < k + 2), V.col ⟨2 * i + 1, h⟩ = ph *ᵥ star (V.col ⟨2 * i, by omega⟩) := by
  have hV : V' = p * V' := by rw [← i2, Matrix.mul_assoc, i1, Matrix.mul_one]
  have j1 : V'ᴴ * x = 0 := by
    rw [hV, conjTranspose_mul, hph', Matrix.mul_assoc, hpx, Matrix.mul_zero]
  have j2 : V'ᴴ * y = 0 := by
    rw [hV, conjTranspose_mul, hph', Matrix.mul_assoc, hpy, Matrix.mul_zero]
  refine ⟨consCol x (consCol y V'), ?_, ?_, ?_, ?_⟩
  · rw [ofFn_consCol, ofFn_consCol]
  · rw [consCol_gram, consCol_gram]
    refine ⟨g1, ?_, hyy, j2, i1⟩
    ext i j
    induction i using Fin.cases with
    | zero => exact congrFun (congrFun hyx 0) j
    | succ i => exact congrFun (congrFun j1 i) j
  · rw [consCol_mul_conj, consCol_mul_conj, i2]
    abel
  · intro i hi
    rcases i with _ | i
    · have : y.col 0 = ph *ᵥ star (x.col 0) := by rw [hy]; rfl
      exact this
    · exact i3 i (by omega)

/-- The pairs constructed for `P^2 = -1`. -/
theorem phsPairs_spec {e : ModeNum n} (he : e.PhsOk) {ph : Matrix (Fin n) (Fin n) ℂ} (hph : phᴴ * ph = 1) : ∀ (k : ℕ) (w : Matrix (Fin n) (Fin k) ℂ), Even k →
    wᴴ * w = 1 → ph * conjM (w * wᴴ) = w * wᴴ * ph → ph * conjM ph * w = -w →
    ∃ V : Matrix (Fin n) (Fin k) ℂ, phsPairs e ph w = List.ofFn V.col ∧ Vᴴ * V = 1 ∧ V * Vᴴ = w * wᴴ ∧
      ∀ i (h : 2 * i + 1 < k), V.col ⟨2 * i + 1, h⟩ = ph *ᵥ star (V.col ⟨2 * i, by omega⟩)
  | 0, w, _, hw, _, _ => ⟨w, by simp [phsPairs], hw, rfl, fun i hi => absurd hi (by omega)⟩
  | 1, _, hev, _, _, _ => absurd hev (by decide)
  | 2, w, hev, hw, hcl, hsq => by
    obtain ⟨g1, hyy, hyx, hPp, hpx, hpy, hph', hpp, hpt, _⟩ := pairStep hph hw hcl hsq rfl rfl rfl rfl
    obtain ⟨V, h1, h2, h3, h4⟩ := pairJoin rfl g1 hyy hyx hpx hpy hph' (V' := (0 : Matrix (Fin n) (Fin 0) ℂ)) (Subsingleton.elim _ _)
      (by
        rw [Matrix.zero_mul]
        exact (eq_zero_of_trace (by rw [hph', hpp, hpt]; simp)).symm) (fun i h => absurd h (by omega))
    exact ⟨V, h1, h2, h3.trans hPp.symm, h4⟩
  | k + 3, w, hev, hw, hcl, hsq => by
    obtain ⟨g1, hyy, hyx, hPp, hpx, hpy, hph', hpp, hpt, hclp, hsqp, g3, hpw, hwy⟩ := pairStep hph hw hcl hsq rfl rfl rfl rfl
    set x : Matrix (Fin n) (Fin 1) ℂ := of fun i _ => w i 0 with hx
    set w' := w.submatrix id Fin.succ with hw'
    set y : Matrix (Fin n) (Fin 1) ℂ := ph * conjM x with hy
    set p := w' * w'ᴴ - y * yᴴ with hp
    have hc : (w'ᴴ * y).col 0 ≠ 0 := by
      intro h0
      have h1 : w'ᴴ * y = 0 := by
        ext i j
        rw [Subsingleton.elim j 0]
        exact congrFun h0 i
      rw [Matrix.mul_assoc, h1, Matrix.mul_zero] at hwy
      rw [← hwy, Matrix.mul_zero] at hyy
      exact zero_ne_one (congrFun (congrFun hyy 0) 0)
    have hac : (p * w') *ᵥ (w'ᴴ * y).col 0 = 0 := by
      have : p * w' * (w'ᴴ * y) = 0 := by
        rw [Matrix.mul_assoc, ← Matrix.mul_assoc w', hwy, hpy]
      ext i
      exact congrFun (congrFun this i) 0
    obtain ⟨q1, q2⟩ := qrPivot_rank he (p * w') (le_of_gram g3) hc hac
    set q := (e.qrPivot (p * w')).submatrix id Fin.castSucc with hq
    have hqp : q * qᴴ * p = p := by
      have := congrArg (· * w'ᴴ) q2
      beta_reduce at this
      rwa [Matrix.mul_assoc _ _ w'ᴴ, Matrix.mul_assoc p, hpw] at this
    have hpq : p = q * qᴴ := proj_eq hph' hpp (gram_proj q1).1 (gram_proj q1).2.1 hqp (by rw [hpt, (gram_proj q1).2.2])
    have hev' : Even (k + 1) := by
      rw [Nat.even_iff] at hev ⊢
      omega
    obtain ⟨V', i1, i2, i3, i4⟩ := phsPairs_spec he hph (k + 1) q hev' q1 (by rw [← hpq]; exact hclp) (by
      have : q = p * q := by rw [hpq, Matrix.mul_assoc, q1, Matrix.mul_one]
      rw [this, ← Matrix.mul_assoc, hsqp, Matrix.neg_mul])
    obtain ⟨V, h1, h2, h3, h4⟩ := pairJoin hy g1 hyy hyx hpx hpy hph' V' i2 (i3.trans hpq.symm) i4
    refine ⟨V, ?_, h2, h3.trans hPp.symm, h4⟩
    rw [← h1, ← i1]
    have hpo : w' * w'ᴴ - vecMulVec (ph *ᵥ star (w.col 0)) (star (ph *ᵥ star (w.col 0))) = p := by
      rw [hp]
      congr 1
      ext i j
      rw [Matrix.mul_apply, Fin.sum_univ_one]
      rfl
    rw [phsPairs]
    rw [← hw', hpo, ← hq]
    rfl

/-! ### `P^2 = 1` -/

/-- The square roots of the eigenvalues. -/
theorem sqrtVals_fun (e : ModeNum n) {k : ℕ} (vals : Fin (k + 1) → ℂ) : ∃ f : ℂ → ℂ, (∀ z, f z ^ 2 = z) ∧ ∀ j, sqrtVals e vals j = f (vals j) := by
  refine ⟨fun z => (z * cexp (I * (branchShift e vals : ℂ))) ^ (1 / 2 : ℂ) * cexp (-(1 / 2 : ℂ) * I * (branchShift e vals : ℂ)), ?_, fun j => rfl⟩
  intro z
  beta_reduce
  rw [mul_pow, show (1 / 2 : ℂ) = ((2 : ℕ) : ℂ)⁻¹ by norm_num, Complex.cpow_nat_inv_pow _ two_ne_zero, ← Complex.exp_nat_mul, mul_assoc, ← Complex.exp_add]
  have : ∀ s : ℂ, I * s + ((2 : ℕ) : ℂ) * (-((2 : ℕ) : ℂ)⁻¹ * I * s) = 0 := by
    intro s
    push_cast
    ring
  rw [this, Complex.exp_zero, mul_one]

/-- A unitary triangular matrix is diagonal. -/
theorem diag_of_unitary {k : ℕ} {t : Matrix (Fin k) (Fin k) ℂ} (ht : ∀ i j, j < i → t i j = 0) (hu : tᴴ * t = 1) : t = diagonal t.diag := by
  have hd : IsUnit t.det := by
    have := congrArg Matrix.det hu
    rw [det_mul, det_one] at this
    exact IsUnit.of_mul_eq_one_right _ this
  have hbt : t.BlockTriangular id := fun i j hij => ht i j hij
  have hinv : t⁻¹ = tᴴ := Matrix.inv_eq_left_inv hu
  have : Invertible t := Matrix.invertibleOfIsUnitDet t hd
  have h2 : t⁻¹.BlockTriangular id := Matrix.blockTriangular_inv_of_blockTriangular hbt
  rw [hinv] at h2
  ext i j
  rw [diagonal_apply]
  by_cases hij : i = j
  · rw [if_pos hij, ← hij]; rfl
  · rw [if_neg hij]
    rcases lt_or_gt_of_ne hij with h0 | h0
    · have := h2 (i := j) (j := i) h0
      rw [conjTranspose_apply, star_eq_zero] at this
      exact this
    · exact ht i j h0

/-- The square root of a symmetric unitary matrix is symmetric and unitary. -/
theorem sqrt_spec {k : ℕ} {U Z : Matrix (Fin k) (Fin k) ℂ} {d : Fin k → ℂ} (hU : U = Z * diagonal d * Zᴴ) (hZ : Zᴴ * Z = 1) (hs : Uᵀ = U) (hu : U * Uᴴ = 1) {f : ℂ → ℂ}
    (hf : ∀ z, f z ^ 2 = z) {S : Matrix (Fin k) (Fin k) ℂ} (hS : S = Z * diagonal (fun j => f (d j)) * Zᴴ) : Sᵀ = S ∧ S * S = U ∧ Sᴴ * S = 1 := by
  have hZ2 : Z * Zᴴ = 1 := mul_eq_one_comm.mp hZ
  have hT1 : Zᵀ * conjM Z = 1 := by
    have := congrArg transpose hZ
    rw [transpose_mul, transpose_one] at this
    rw [← this]
    congr 1
  have hT2 : conjM Z * Zᵀ = 1 := mul_eq_one_comm.mp hT1
  have hZt : Zᴴᵀ = conjM Z := rfl
  have hcomm : diagonal d * (Zᵀ * Z) = Zᵀ * Z * diagonal d := by
    have h1 : conjM Z * diagonal d * Zᵀ = Z * diagonal d * Zᴴ := by
      rw [← hU, ← hs, hU, transpose_mul, transpose_mul, diagonal_transpose, hZt, Matrix.mul_assoc]
    calc diagonal d * (Zᵀ * Z) = Zᵀ * (conjM Z * diagonal d * Zᵀ) * Z := by
          rw [← Matrix.mul_assoc, ← Matrix.mul_assoc, ← Matrix.mul_assoc, hT1, Matrix.one_mul, Matrix.mul_assoc]
      _ = Zᵀ * Z * diagonal d := by
          rw [h1, Matrix.mul_assoc, Matrix.mul_assoc (Z * diagonal d), hZ, Matrix.mul_one, Matrix.mul_assoc]
  have hcomm2 : diagonal (fun j => f (d j)) * (Zᵀ * Z) = Zᵀ * Z * diagonal (fun j => f (d j)) := by
    ext i j
    have := congrFun (congrFun hcomm i) j
    rw [diagonal_mul, mul_diagonal] at this ⊢
    by_cases hx : (Zᵀ * Z) i j = 0
    · rw [hx, mul_zero, zero_mul]
    · rw [mul_comm] at this
      rw [mul_left_cancel₀ hx this, mul_comm]
  have hd : ∀ j, ‖d j‖ = 1 := by
    intro j
    have h1 : diagonal d * (diagonal d)ᴴ = 1 := by
      have : Zᴴ * (U * Uᴴ) * Z = 1 := by rw [hu, Matrix.mul_one, hZ]
      rw [hU, conjTranspose_mul, conjTranspose_mul, conjTranspose_conjTranspose] at this
      rw [← this]
      simp only [Matrix.mul_assoc]
      rw [hZ, Matrix.mul_one, ← Matrix.mul_assoc Zᴴ Z, hZ, Matrix.one_mul, ← Matrix.mul_assoc Zᴴ Z, hZ, Matrix.one_mul]
    have h2 := congrFun (congrFun h1 j) j
    rw [diagonal_conjTranspose, diagonal_mul_diagonal, diagonal_apply_eq, one_apply_eq, Pi.star_apply, star_def, Complex.mul_conj, Complex.normSq_eq_norm_sq] at h2
    have h3 : ‖d j‖ ^ 2 = 1 := by exact_mod_cast h2
    nlinarith [norm_nonneg (d j)]
  have hfd : ∀ j, (starRingEnd ℂ) (f (d j)) * f (d j) = 1 := by
    intro j
    have h1 : ‖f (d j)‖ ^ 2 = 1 := by rw [← norm_pow, hf, hd]
    rw [mul_comm, Complex.mul_conj, Complex.normSq_eq_norm_sq, h1, Complex.ofReal_one]
  refine ⟨?_, ?_, ?_⟩
  · have h1 : Sᵀ = conjM Z * (diagonal (fun j => f (d j)) * Zᵀ) := by rw [hS, transpose_mul, transpose_mul, diagonal_transpose, hZt]
    calc Sᵀ = conjM Z * (diagonal (fun j => f (d j)) * (Zᵀ * Z)) * Zᴴ := by
          rw [h1]; simp only [Matrix.mul_assoc]; rw [hZ2, Matrix.mul_one]
      _ = S := by rw [hcomm2, ← Matrix.mul_assoc, ← Matrix.mul_assoc, hT2, Matrix.one_mul, hS]
  · rw [hS, hU]
    calc Z * diagonal (fun j => f (d j)) * Zᴴ * (Z * diagonal (fun j => f (d j)) * Zᴴ)
        = Z * diagonal (fun j => f (d j)) * (Zᴴ * Z) * (diagonal (fun j => f (d j)) * Zᴴ) := by simp only [Matrix.mul_assoc]
      _ = Z * (diagonal (fun j => f (d j)) * diagonal (fun j => f (d j))) * Zᴴ := by rw [hZ, Matrix.mul_one]; simp only [Matrix.mul_assoc]
      _ = _ := by
        rw [diagonal_mul_diagonal]
        congr 3
        ext j
        rw [← sq, hf]
  · rw [hS, conjTranspose_mul, conjTranspose_mul, conjTranspose_conjTranspose, diagonal_conjTranspose]
    calc Z * ((diagonal (star fun j => f (d j))) * Zᴴ) * (Z * diagonal (fun j => f (d j)) * Zᴴ)
        = Z * (diagonal (star fun j => f (d j))) * (Zᴴ * Z) * (diagonal (fun j => f (d j)) * Zᴴ) := by simp only [Matrix.mul_assoc]
      _ = Z * ((diagonal (star fun j => f (d j))) * diagonal (fun j => f (d j))) * Zᴴ := by rw [hZ, Matrix.mul_one]; simp only [Matrix.mul_assoc]
      _ = 1 := by
        rw [diagonal_mul_diagonal]
        have : (diagonal fun i => (star fun j => f (d j)) i * f (d i)) = (1 : Matrix (Fin k) (Fin k) ℂ) := by
          rw [← diagonal_one]
          congr 1
          ext j
          exact hfd j
        rw [this, Matrix.mul_one, hZ2]

/-! ### C154 -/

/-- The unitary check of the code: the space is closed under `P`. -/
theorem closed_of_unitary {ph : Matrix (Fin n) (Fin n) ℂ} (hph : phᴴ * ph = 1) {k : ℕ} {w : Matrix (Fin n) (Fin k) ℂ} (hw : wᴴ * w = 1)
    (hu : wᴴ * pdot ph w * (wᴴ * pdot ph w)ᴴ = 1) : pdot ph w = w * (wᴴ * pdot ph w) := by
  set U := wᴴ * pdot ph w with hU
  have hu2 : Uᴴ * U = 1 := mul_eq_one_comm.mp hu
  have h1 : (pdot ph w)ᴴ * pdot ph w = 1 := by
    rw [pdot_eq, conjTranspose_mul, Matrix.mul_assoc, ← Matrix.mul_assoc phᴴ, hph, Matrix.one_mul]
    have := congrArg conjM hw
    rw [conjM_mul, conjM_one] at this
    rw [← this]
    rfl
  have h2 : Uᴴ = (pdot ph w)ᴴ * w := by rw [hU, conjTranspose_mul, conjTranspose_conjTranspose]
  have h3 : (pdot ph w - w * U)ᴴ * (pdot ph w - w * U) = 0 := by
    have a1 : (pdot ph w)ᴴ * (w * U) = 1 := by rw [← Matrix.mul_assoc, ← h2, hu2]
    have a2 : (w * U)ᴴ * pdot ph w = 1 := by rw [conjTranspose_mul, Matrix.mul_assoc, ← hU, hu2]
    have a3 : (w * U)ᴴ * (w * U) = 1 := by rw [conjTranspose_mul, Matrix.mul_assoc, ← Matrix.mul_assoc wᴴ, hw, Matrix.one_mul, hu2]
    rw [conjTranspose_sub, Matrix.sub_mul, Matrix.mul_sub, Matrix.mul_sub, h1, a1, a2, a3]
    abel
  exact sub_eq_zero.mp (eq_zero_of_mul h3)

/-- What is promised: the new wave functions are an orthonormal basis of the same space, and are particle-hole symmetric. -/
structure PhsSpec (ph : Matrix (Fin n) (Fin n) ℂ) {k : ℕ} (w V : Matrix (Fin n) (Fin k) ℂ) (s : Fin k → ℕ) : Prop where
  orthonormal : Vᴴ * V = 1
  space : ∀ ψ, (∃ c, ψ = V *ᵥ c) ↔ ∃ c, ψ = w *ᵥ c
  /-- If `P^2 = 1`, every wave function is an eigenstate of `P`. -/
  plus : ph * conjM ph * w = w → (∀ j, ph *ᵥ star (V.col j) = V.col j) ∧ ∀ j, s j = 0
  /-- If `P^2 = -1`, the wave functions come in pairs. -/
  minus : ph * conjM ph * w = -w → Even k ∧ (∀ i (h : 2 * i + 1 < k), V.col ⟨2 * i + 1, h⟩ = ph *ᵥ star (V.col ⟨2 * i, by omega⟩)) ∧ ∀ j, s j = j.val

theorem space_of_proj {k : ℕ} {w V : Matrix (Fin n) (Fin k) ℂ} (hw : wᴴ * w = 1) (hV : Vᴴ * V = 1) (h : V * Vᴴ = w * wᴴ) (ψ : Fin n → ℂ) :
    (∃ c, ψ = V *ᵥ c) ↔ ∃ c, ψ = w *ᵥ c := by
  constructor
  · rintro ⟨c, rfl⟩
    refine ⟨wᴴ *ᵥ (V *ᵥ c), ?_⟩
    rw [mulVec_mulVec, mulVec_mulVec, ← h, Matrix.mul_assoc, hV, Matrix.mul_one]
  · rintro ⟨c, rfl⟩
    refine ⟨Vᴴ *ᵥ (w *ᵥ c), ?_⟩
    rw [mulVec_mulVec, mulVec_mulVec, h, Matrix.mul_assoc, hw, Matrix.mul_one]

theorem col_eq {k : ℕ} {ph : Matrix (Fin n) (Fin n) ℂ} (V : Matrix (Fin n) (Fin k) ℂ) (j : Fin k) : ph *ᵥ star (V.col j) = (pdot ph V).col j := rfl

theorem even_of_minus {k : ℕ} {U : Matrix (Fin k) (Fin k) ℂ} (h : U * conjM U = -1) : Even k := by
  have h1 := congrArg Matrix.det h
  rw [det_mul, det_neg, det_one, mul_one, Fintype.card_fin] at h1
  have h2 : (conjM U).det = (starRingEnd ℂ) U.det := by
    rw [conjM, ← RingHom.mapMatrix_apply, ← RingHom.map_det]
  rw [h2, Complex.mul_conj] at h1
  by_contra hodd
  rw [Nat.not_even_iff_odd] at hodd
  rw [hodd.neg_one_pow] at h1
  have h3 : Complex.normSq U.det = -1 := by exact_mod_cast h1
  linarith [Complex.normSq_nonneg U.det]

theorem normalize_of_unit {v : Fin n → ℂ} (h : star v ⬝ᵥ v = 1) : normalize v = v := by
  have h1 : ∑ j, ‖v j‖ ^ 2 = 1 := by
    have : ((∑ j, ‖v j‖ ^ 2 : ℝ) : ℂ) = star v ⬝ᵥ v := by
      rw [dotProduct]
      push_cast
      refine Finset.sum_congr rfl fun j _ => ?_
      rw [Pi.star_apply, star_def, mul_comm, Complex.mul_conj, Complex.normSq_eq_norm_sq]
      push_cast
      rfl
    rw [h] at this
    exact_mod_cast this
  ext i
  rw [normalize, h1, Real.sqrt_one, Complex.ofReal_one, div_one]

/-- The wave functions returned, for the two signs of `P^2`; the condition is the one that the code checks. -/
theorem phs_run {e : ModeNum n} (he : e.PhsOk) {ph : Matrix (Fin n) (Fin n) ℂ} (hph : phᴴ * ph = 1) {k : ℕ} {w : Matrix (Fin n) (Fin (k + 1)) ℂ} (hw : wᴴ * w = 1)
    (hcl : pdot ph w = w * (wᴴ * pdot ph w)) (hsq : ph * conjM ph * w = w ∨ ph * conjM ph * w = -w) :
    ∃ V s, phsSymmetrization e ph w = .ok (V, s) ∧ PhsSpec ph w V s := by
  set U := wᴴ * pdot ph w with hU
  have hcl' : ph * conjM w = w * U := hcl
  have hUc : ph * conjM ph * w = w * (U * conjM U) := by
    have h1 : ph * conjM (ph * conjM w) = ph * conjM (w * U) := by rw [hcl']
    rw [conjM_mul, conjM_cj, conjM_mul, ← Matrix.mul_assoc ph (conjM w), hcl'] at h1
    rw [Matrix.mul_assoc, h1, Matrix.mul_assoc]
  have huu : U * Uᴴ = 1 := by
    have h1 : (pdot ph w)ᴴ * pdot ph w = 1 := by
      rw [pdot_eq, conjTranspose_mul, Matrix.mul_assoc, ← Matrix.mul_assoc phᴴ, hph, Matrix.one_mul]
      have := congrArg conjM hw
      rw [conjM_mul, conjM_one] at this
      rw [← this]
      rfl
    rw [hcl, conjTranspose_mul, Matrix.mul_assoc, ← Matrix.mul_assoc wᴴ, hw, Matrix.one_mul] at h1
    exact mul_eq_one_comm.mp h1
  have hUw : U * conjM U = wᴴ * (ph * conjM ph * w) := by rw [hUc, ← Matrix.mul_assoc, hw, Matrix.one_mul]
  have hne : ¬(1 : Matrix (Fin (k + 1)) (Fin (k + 1)) ℂ) = -1 := by
    intro h0
    have := congrFun (congrFun h0 0) 0
    rw [Matrix.neg_apply, one_apply_eq] at this
    norm_num at this
  have hnew : ¬(w = -w) := by
    intro h0
    have : wᴴ * w = wᴴ * -w := congrArg (wᴴ * ·) h0
    rw [Matrix.mul_neg, hw] at this
    exact hne this
  rw [phsSymmetrization, ← hU, if_neg (not_not.mpr huu)]
  rcases hsq with hsq | hsq
  · have hp1 : U * conjM U = 1 := by rw [hUw, hsq, hw]
    refine ⟨_, _, if_pos hp1, ?_⟩
    have hsym : Uᵀ = U := by
      have h1 : Uᴴ = conjM U := by
        calc Uᴴ = Uᴴ * (U * conjM U) := by rw [hp1, Matrix.mul_one]
          _ = conjM U := by rw [← Matrix.mul_assoc, mul_eq_one_comm.mp huu, Matrix.one_mul]
      have := congrArg conjM h1
      rwa [conjM_conjTranspose, conjM_cj] at this
    obtain ⟨s1, s2, s3⟩ := he.schur U
    obtain ⟨f, f1, f2⟩ := sqrtVals_fun e (e.schur U).1.diag
    have htu : (e.schur U).1ᴴ * (e.schur U).1 = 1 := by
      have h1 : (e.schur U).1 = (e.schur U).2ᴴ * U * (e.schur U).2 := by
        calc (e.schur U).1 = (e.schur U).2ᴴ * (e.schur U).2 * (e.schur U).1 * ((e.schur U).2ᴴ * (e.schur U).2) := by rw [s2, Matrix.one_mul, Matrix.mul_one]
          _ = (e.schur U).2ᴴ * ((e.schur U).2 * (e.schur U).1 * (e.schur U).2ᴴ) * (e.schur U).2 := by simp only [Matrix.mul_assoc]
          _ = (e.schur U).2ᴴ * U * (e.schur U).2 := by rw [← s1]
      have s2' : (e.schur U).2 * (e.schur U).2ᴴ = 1 := mul_eq_one_comm.mp s2
      rw [h1]
      simp only [conjTranspose_mul, conjTranspose_conjTranspose, Matrix.mul_assoc]
      rw [← Matrix.mul_assoc (e.schur U).2, s2', Matrix.one_mul, ← Matrix.mul_assoc Uᴴ, mul_eq_one_comm.mp huu, Matrix.one_mul, s2]
    have hD := diag_of_unitary s3 htu
    have s1' : U = (e.schur U).2 * diagonal (e.schur U).1.diag * (e.schur U).2ᴴ := by rw [← hD]; exact s1
    obtain ⟨S1, S2, S3⟩ := sqrt_spec s1' s2 hsym huu f1 (S := (e.schur U).2 * diagonal (sqrtVals e (e.schur U).1.diag) * (e.schur U).2ᴴ) (by
      congr 3
      ext j
      exact f2 j)
    set S := (e.schur U).2 * diagonal (sqrtVals e (e.schur U).1.diag) * (e.schur U).2ᴴ with hS
    have hV : phsPlus e w U = w * S := rfl
    have hVV : (w * S)ᴴ * (w * S) = 1 := by rw [conjTranspose_mul, Matrix.mul_assoc, ← Matrix.mul_assoc wᴴ, hw, Matrix.one_mul, S3]
    rw [hV]
    refine ⟨hVV, space_of_proj hw hVV ?_, fun _ => ⟨fun j => ?_, fun _ => rfl⟩, fun h0 => absurd (hsq.symm.trans h0) hnew⟩
    · rw [conjTranspose_mul, Matrix.mul_assoc, ← Matrix.mul_assoc S, mul_eq_one_comm.mp S3, Matrix.one_mul]
    · rw [col_eq]
      congr 1
      have hSc : conjM S = Sᴴ := by
        conv_lhs => rw [← S1]
        rfl
      rw [pdot_eq, conjM_mul, ← Matrix.mul_assoc, hcl', Matrix.mul_assoc, ← S2, hSc, Matrix.mul_assoc S, mul_eq_one_comm.mp S3, Matrix.mul_one]
  · have hp1 : U * conjM U = -1 := by rw [hUw, hsq, Matrix.mul_neg, hw]
    have hev := even_of_minus hp1
    have hcl2 : ph * conjM (w * wᴴ) = w * wᴴ * ph := by
      have hph2 : ph * phᴴ = 1 := mul_eq_one_comm.mp hph
      have h2 : conjM w * Uᴴ = phᴴ * w := by
        have : ph * conjM w * Uᴴ = w := by rw [hcl', Matrix.mul_assoc, huu, Matrix.mul_one]
        have h3 := congrArg (phᴴ * ·) this
        beta_reduce at h3
        rwa [Matrix.mul_assoc, ← Matrix.mul_assoc phᴴ, hph, Matrix.one_mul] at h3
      have h3 : U * wᵀ = wᴴ * ph := by
        have := congrArg conjTranspose h2
        rwa [conjTranspose_mul, conjTranspose_conjTranspose, conjTranspose_mul, conjTranspose_conjTranspose, conjM_herm] at this
      rw [conjM_mul, conjM_conjTranspose, ← Matrix.mul_assoc, hcl', Matrix.mul_assoc, h3, Matrix.mul_assoc]
    obtain ⟨V, h1, h2, h3, h4⟩ := phsPairs_spec he hph (k + 1) w hev hw hcl2 hsq
    have hlen : (phsPairs e ph w).length = k + 1 := by rw [h1, List.length_ofFn]
    refine ⟨V, fun j => j.val, ?_, h2, space_of_proj hw h2 h3, fun h0 => absurd (h0.symm.trans hsq) hnew, fun _ => ⟨hev, h4, fun _ => rfl⟩⟩
    have hp1' : ¬(U * U.map (starRingEnd ℂ) = 1) := fun h0 => hne (h0.symm.trans hp1)
    have hp1'' : U * U.map (starRingEnd ℂ) = -1 := hp1
    dsimp only
    rw [if_neg hp1', if_pos hp1'', dif_pos hlen]
    congr 2
    ext i j
    have hg : (phsPairs e ph w).get (j.cast hlen.symm) = V.col j := by
      have : ∀ (l : List (Fin n → ℂ)) (hl : l = List.ofFn V.col) (h : l.length = k + 1), l.get (j.cast h.symm) = V.col j := by
        intro l hl h
        subst hl
        rw [List.get_eq_getElem, List.getElem_ofFn]
        rfl
      exact this _ h1 hlen
    rw [of_apply, hg, normalize_of_unit]
    · rfl
    · have := congrFun (congrFun h2 j) j
      rw [one_apply_eq] at this
      exact this

/-- C154: the wave functions returned are an orthonormal basis of the same space; they are eigenstates of `P` if `P^2 = 1`, and pairs `ψ, P ψ` if `P^2 = -1`. -/
theorem C154_symmetric {e : ModeNum n} (he : e.PhsOk) {ph : Matrix (Fin n) (Fin n) ℂ} (hph : phᴴ * ph = 1) {k : ℕ} {w : Matrix (Fin n) (Fin k) ℂ} (hw : wᴴ * w = 1)
    {V : Matrix (Fin n) (Fin k) ℂ} {s : Fin k → ℕ} (h : phsSymmetrization e ph w = .ok (V, s)) :
    PhsSpec ph w V s ∧ (ph * conjM ph * w = w ∨ ph * conjM ph * w = -w) := by
  rcases k with _ | k
  · cases h
  have h' := h
  rw [phsSymmetrization] at h'
  dsimp only at h'
  split at h'
  · cases h'
  rename_i hu
  rw [not_not] at hu
  have hcl := closed_of_unitary hph hw hu
  have hcl' : ph * conjM w = w * (wᴴ * pdot ph w) := hcl
  have hUc : ph * conjM ph * w = w * (wᴴ * pdot ph w * conjM (wᴴ * pdot ph w)) := by
    have h1 : ph * conjM (ph * conjM w) = ph * conjM (w * (wᴴ * pdot ph w)) := by rw [← hcl']
    rw [conjM_mul ph, conjM_cj, conjM_mul w, ← Matrix.mul_assoc ph (conjM w), hcl'] at h1
    rw [Matrix.mul_assoc, h1, Matrix.mul_assoc]
  have hsq : ph * conjM ph * w = w ∨ ph * conjM ph * w = -w := by
    split at h'
    · rename_i h2
      left
      have h2' : wᴴ * pdot ph w * conjM (wᴴ * pdot ph w) = 1 := h2
      rw [hUc, h2', Matrix.mul_one]
    · split at h'
      · rename_i h2
        right
        have h2' : wᴴ * pdot ph w * conjM (wᴴ * pdot ph w) = -1 := h2
        rw [hUc, h2', Matrix.mul_neg, Matrix.mul_one]
      · cases h'
  obtain ⟨V', s', g1, g2⟩ := phs_run he hph hw hcl hsq
  rw [h] at g1
  cases g1
  exact ⟨g2, hsq⟩

/-- C154: `ValueError` is raised exactly if the space is not closed under `P` or `P^2` is neither `1` nor `-1` on it. -/
theorem C154_error {e : ModeNum n} (he : e.PhsOk) {ph : Matrix (Fin n) (Fin n) ℂ} (hph : phᴴ * ph = 1) {k : ℕ} (hk : 0 < k) {w : Matrix (Fin n) (Fin k) ℂ} (hw : wᴴ * w = 1) (x : LErr) :
    phsSymmetrization e ph w = .error x ↔ x = .valueError ∧ ¬((∀ c, ∃ d, ph *ᵥ star (w *ᵥ c) = w *ᵥ d) ∧ (ph * conjM ph * w = w ∨ ph * conjM ph * w = -w)) := by
  obtain ⟨k, rfl⟩ : ∃ k', k = k' + 1 := ⟨k - 1, by omega⟩
  have hiff : (∀ c, ∃ d, ph *ᵥ star (w *ᵥ c) = w *ᵥ d) ↔ pdot ph w = w * (wᴴ * pdot ph w) := by
    constructor
    · intro hc
      ext i j
      obtain ⟨d, hd⟩ := hc (Pi.single j 1)
      have h1 : w *ᵥ Pi.single j 1 = w.col j := by rw [mulVec_single_one]
      rw [h1, col_eq] at hd
      have h2 : (w * (wᴴ * pdot ph w)).col j = w *ᵥ (wᴴ *ᵥ (pdot ph w).col j) := by
        rw [mulVec_mulVec, ← Matrix.mul_assoc]
        rfl
      rw [hd, mulVec_mulVec d, hw, one_mulVec, ← hd] at h2
      exact (congrFun h2 i).symm
    · intro hc c
      refine ⟨(wᴴ * pdot ph w) *ᵥ star c, ?_⟩
      have h1 : ph *ᵥ star (w *ᵥ c) = pdot ph w *ᵥ star c := by
        rw [pdot_eq, ← mulVec_mulVec]
        congr 1
        ext i
        simp [mulVec, dotProduct, conjM]
      rw [h1, mulVec_mulVec, ← hc]
  rw [hiff]
  constructor
  · intro h
    refine ⟨?_, fun ⟨h1, h2⟩ => ?_⟩
    · rw [phsSymmetrization] at h
      dsimp only at h
      split at h
      · cases h; rfl
      · split at h
        · cases h
        · split at h
          · split at h
            · cases h
            · cases h; rfl
          · cases h; rfl
    · obtain ⟨V, s, g1, _⟩ := phs_run he hph hw h1 h2
      rw [g1] at h
      cases h
  · rintro ⟨rfl, h⟩
    cases hr : phsSymmetrization e ph w with
    | ok o =>
      exfalso
      obtain ⟨V, s⟩ := o
      obtain ⟨_, g2⟩ := C154_symmetric he hph hw hr
      refine h ⟨?_, g2⟩
      rw [phsSymmetrization] at hr
      dsimp only at hr
      split at hr
      · cases hr
      rename_i hu
      rw [not_not] at hu
      exact closed_of_unitary hph hw hu
    | error y =>
      rw [phsSymmetrization] at hr
      dsimp only at hr
      split at hr
      · cases hr; rfl
      · split at hr
        · cases hr
        · split at hr
          · split at hr
            · cases hr
            · cases hr; rfl
          · cases hr; rfl

end Kwant.Leads
