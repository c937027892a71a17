import Verif.Leads.PhsCut
import Verif.Leads.ModeNumEx
import Verif.Leads.EigNumEx
import Mathlib.GroupTheory.Perm.Fin
import Mathlib.LinearAlgebra.Matrix.ToLin

/-!
The contracts of the numerical routines used by `phs_symmetrization` can be met, for matrices of every size; examples for C154 and C155.
-/

set_option linter.unusedSectionVars false

namespace Kwant.Leads
open Matrix Complex

variable {n : ℕ}

/-- The squared norm of a column. -/
noncomputable def nsq {k : ℕ} (a : Matrix (Fin n) (Fin k) ℂ) (j : Fin k) : ℝ := ∑ x, ‖a x j‖ ^ 2

theorem nsq_eq {k : ℕ} (a : Matrix (Fin n) (Fin k) ℂ) (j : Fin k) : ((nsq a j : ℝ) : ℂ) = (aᴴ * a) j j := by
  rw [nsq, Matrix.mul_apply]
  push_cast
  refine Finset.sum_congr rfl fun x _ => ?_
  rw [conjTranspose_apply, star_def, mul_comm, Complex.mul_conj, Complex.normSq_eq_norm_sq]
  push_cast
  rfl

theorem nsq_nonneg {k : ℕ} (a : Matrix (Fin n) (Fin k) ℂ) (j : Fin k) : 0 ≤ nsq a j := Finset.sum_nonneg fun _ _ => by positivity

/-- A unit vector orthogonal to given vectors. -/
theorem exists_orth {m : ℕ} (Q : Matrix (Fin n) (Fin m) ℂ) (hm : m < n) : ∃ x : Matrix (Fin n) (Fin 1) ℂ, xᴴ * x = 1 ∧ Qᴴ * x = 0 := by
  obtain ⟨v, hv0, hv⟩ : ∃ v : Fin n → ℂ, v ≠ 0 ∧ Qᴴ *ᵥ v = 0 := by
    by_contra hcon
    push Not at hcon
    have hk : ∀ c, Qᴴ *ᵥ c = 0 → c = 0 := fun c hc => by
      by_contra h0
      exact hcon c h0 hc
    have := le_of_inj hk
    omega
  set ν : ℝ := nsq (of fun i (_ : Fin 1) => v i) 0 with hν
  have hpos : 0 < ν := by
    refine lt_of_le_of_ne (nsq_nonneg _ _) fun h0 => hv0 ?_
    ext i
    have := (Finset.sum_eq_zero_iff_of_nonneg (fun c _ => by positivity)).mp h0.symm i (Finset.mem_univ _)
    simpa using this
  refine ⟨of fun i _ => ((Real.sqrt ν : ℝ) : ℂ)⁻¹ * v i, ?_, ?_⟩
  · ext i j
    rw [Subsingleton.elim i 0, Subsingleton.elim j 0, ← nsq_eq, one_apply_eq]
    have : nsq (of fun i (_ : Fin 1) => ((Real.sqrt ν : ℝ) : ℂ)⁻¹ * v i) 0 = ν⁻¹ * ν := by
      have h2 : ν⁻¹ * ν = ν⁻¹ * ∑ x, ‖v x‖ ^ 2 := rfl
      rw [h2, nsq, Finset.mul_sum]
      refine Finset.sum_congr rfl fun i _ => ?_
      rw [of_apply, norm_mul, mul_pow, norm_inv, Complex.norm_real, Real.norm_eq_abs, abs_of_nonneg (Real.sqrt_nonneg _), inv_pow, Real.sq_sqrt hpos.le]
    rw [this, inv_mul_cancel₀ hpos.ne', Complex.ofReal_one]
  · ext i j
    have h1 := congrFun hv i
    rw [Matrix.mul_apply]
    simp only [of_apply]
    have : ∑ x, Qᴴ i x * (((Real.sqrt ν : ℝ) : ℂ)⁻¹ * v x) = ((Real.sqrt ν : ℝ) : ℂ)⁻¹ * (Qᴴ *ᵥ v) i := by
      rw [mulVec, dotProduct, Finset.mul_sum]
      refine Finset.sum_congr rfl fun x _ => ?_
      ring
    rw [this, h1]
    simp

/-- A QR decomposition with column pivoting exists. -/
theorem exists_qrPivot : ∀ (k m : ℕ) (Q : Matrix (Fin n) (Fin m) ℂ) (a : Matrix (Fin n) (Fin k) ℂ), k + m ≤ n → Qᴴ * a = 0 →
    ∃ (q : Matrix (Fin n) (Fin k) ℂ) (σ : Equiv.Perm (Fin k)) (t : Matrix (Fin k) (Fin k) ℂ), qᴴ * q = 1 ∧ Qᴴ * q = 0 ∧ a.submatrix id σ = q * t ∧
      (∀ i j, j < i → t i j = 0) ∧ (∀ i j, i ≤ j → ‖t j j‖ ≤ ‖t i i‖) ∧ ∀ i, ∃ j, ‖t i i‖ ^ 2 ≤ nsq a j
  | 0, m, Q, a, _, _ => ⟨a, 1, 1, Subsingleton.elim _ _, by ext i j; exact j.elim0, by ext i j; exact j.elim0, fun i => i.elim0, fun i => i.elim0, fun i => i.elim0⟩
  | k + 1, m, Q, a, hk, ha => by
    obtain ⟨c, hc⟩ := Finite.exists_max (nsq a)
    -- the first column
    obtain ⟨x, hx1, hx2, hx3⟩ : ∃ x : Matrix (Fin n) (Fin 1) ℂ, xᴴ * x = 1 ∧ Qᴴ * x = 0 ∧ ∀ i, a i c = ((Real.sqrt (nsq a c) : ℝ) : ℂ) * x i 0 := by
      rcases (nsq_nonneg a c).eq_or_lt with h0 | h0
      · obtain ⟨x, h1, h2⟩ := exists_orth Q (by omega)
        refine ⟨x, h1, h2, fun i => ?_⟩
        have := (Finset.sum_eq_zero_iff_of_nonneg (fun c _ => by positivity)).mp h0.symm i (Finset.mem_univ _)
        rw [← h0, Real.sqrt_zero, Complex.ofReal_zero, zero_mul]
        simpa using this
      · have hs : ((Real.sqrt (nsq a c) : ℝ) : ℂ) ≠ 0 := Complex.ofReal_ne_zero.mpr (Real.sqrt_pos.mpr h0).ne'
        refine ⟨of fun i _ => ((Real.sqrt (nsq a c) : ℝ) : ℂ)⁻¹ * a i c, ?_, ?_, fun i => ?_⟩
        · ext i j
          rw [Subsingleton.elim i 0, Subsingleton.elim j 0, ← nsq_eq, one_apply_eq]
          have : nsq (of fun i (_ : Fin 1) => ((Real.sqrt (nsq a c) : ℝ) : ℂ)⁻¹ * a i c) 0 = (nsq a c)⁻¹ * nsq a c := by
            conv_rhs => rw [nsq, Finset.mul_sum]
            rw [nsq]
            refine Finset.sum_congr rfl fun i _ => ?_
            rw [of_apply, norm_mul, mul_pow, norm_inv, Complex.norm_real, Real.norm_eq_abs, abs_of_nonneg (Real.sqrt_nonneg _), inv_pow, Real.sq_sqrt h0.le]
            rfl
          rw [this, inv_mul_cancel₀ h0.ne', Complex.ofReal_one]
        · ext i j
          have h1 := congrFun (congrFun ha i) c
          rw [Matrix.mul_apply] at h1 ⊢
          simp only [of_apply]
          have : ∑ x, Qᴴ i x * (((Real.sqrt (nsq a c) : ℝ) : ℂ)⁻¹ * a x c) = ((Real.sqrt (nsq a c) : ℝ) : ℂ)⁻¹ * ∑ x, Qᴴ i x * a x c := by
            rw [Finset.mul_sum]
            refine Finset.sum_congr rfl fun x _ => ?_
            ring
          rw [this, h1]
          simp
        · rw [of_apply, mul_inv_cancel_left₀ hs]
    set τ := Equiv.swap (0 : Fin (k + 1)) c with hτ
    set b : Matrix (Fin n) (Fin k) ℂ := a.submatrix id (fun j => τ j.succ) with hb
    set b' := b - x * (xᴴ * b) with hb'
    have hxb : xᴴ * b' = 0 := by rw [hb', Matrix.mul_sub, ← Matrix.mul_assoc, hx1, Matrix.one_mul, sub_self]
    have hQb : Qᴴ * b = 0 := by
      ext i j
      exact congrFun (congrFun ha i) (τ j.succ)
    have hQb' : Qᴴ * b' = 0 := by rw [hb', Matrix.mul_sub, hQb, ← Matrix.mul_assoc, hx2, Matrix.zero_mul, sub_zero]
    obtain ⟨q', σ', t', g1, g2, g3, g4, g5, g6⟩ := exists_qrPivot k (m + 1) (consCol x Q) b' (by omega) (by
      ext i j
      induction i using Fin.cases with
      | zero => exact congrFun (congrFun hxb 0) j
      | succ i => exact congrFun (congrFun hQb' i) j)
    have g2x : xᴴ * q' = 0 := by
      ext i j
      rw [Subsingleton.elim i 0]
      exact congrFun (congrFun g2 0) j
    have g2Q : Qᴴ * q' = 0 := by
      ext i j
      exact congrFun (congrFun g2 i.succ) j
    set t : Matrix (Fin (k + 1)) (Fin (k + 1)) ℂ := of fun i j => Fin.cases (motive := fun _ => ℂ)
      (Fin.cases (motive := fun _ => ℂ) ((Real.sqrt (nsq a c) : ℝ) : ℂ) (fun j => (xᴴ * b) 0 (σ' j)) j)
      (fun i => Fin.cases (motive := fun _ => ℂ) 0 (fun j => t' i j) j) i with ht
    have hsq : ∀ j, nsq b' j ≤ nsq b j := by
      intro j
      have h1 : bᴴ * b = b'ᴴ * b' + (xᴴ * b)ᴴ * (xᴴ * b) := by
        have h2 : b = b' + x * (xᴴ * b) := by rw [hb']; abel
        have h3 : b'ᴴ * x = 0 := by
          have := congrArg conjTranspose hxb
          rwa [conjTranspose_mul, conjTranspose_conjTranspose, conjTranspose_zero] at this
        set y := xᴴ * b with hy
        rw [h2, conjTranspose_add, Matrix.add_mul, Matrix.mul_add, Matrix.mul_add, conjTranspose_mul]
        rw [← Matrix.mul_assoc b'ᴴ, h3, Matrix.zero_mul, add_zero, Matrix.mul_assoc yᴴ, hxb, Matrix.mul_zero, zero_add, Matrix.mul_assoc yᴴ, ← Matrix.mul_assoc xᴴ, hx1, Matrix.one_mul]
      have h2 := congrFun (congrFun h1 j) j
      rw [Matrix.add_apply, ← nsq_eq, ← nsq_eq, Matrix.mul_apply, Fin.sum_univ_one, conjTranspose_apply, star_def, mul_comm, Complex.mul_conj] at h2
      have h3 : nsq b j = nsq b' j + Complex.normSq ((xᴴ * b) 0 j) := by exact_mod_cast h2
      linarith [Complex.normSq_nonneg ((xᴴ * b) 0 j)]
    have hsmall : ∀ i, ‖t' i i‖ ≤ Real.sqrt (nsq a c) := by
      intro i
      obtain ⟨j, hj⟩ := g6 i
      refine Real.le_sqrt_of_sq_le ((hj.trans (hsq j)).trans ?_)
      exact hc (τ j.succ)
    have hnc : ‖((Real.sqrt (nsq a c) : ℝ) : ℂ)‖ = Real.sqrt (nsq a c) := by rw [Complex.norm_real, Real.norm_eq_abs, abs_of_nonneg (Real.sqrt_nonneg _)]
    refine ⟨consCol x q', (Equiv.Perm.decomposeFin.symm (0, σ')).trans τ, t, ?_, ?_, ?_, ?_, ?_, ?_⟩
    · rw [consCol_gram]
      refine ⟨hx1, ?_, g1⟩
      have := congrArg conjTranspose g2x
      rwa [conjTranspose_mul, conjTranspose_conjTranspose, conjTranspose_zero] at this
    · ext i j
      induction j using Fin.cases with
      | zero => exact congrFun (congrFun hx2 i) 0
      | succ j => exact congrFun (congrFun g2Q i) j
    · ext i j
      rw [Matrix.mul_apply, Fin.sum_univ_succ]
      induction j using Fin.cases with
      | zero =>
        have h1 : (Equiv.Perm.decomposeFin.symm (0, σ')).trans τ 0 = c := by simp [hτ]
        rw [submatrix_apply, h1]
        have h2 : ∑ l : Fin k, consCol x q' i l.succ * t l.succ 0 = 0 := Finset.sum_eq_zero fun l _ => mul_zero _
        rw [h2, add_zero, mul_comm]
        exact hx3 i
      | succ j =>
        have h1 : (Equiv.Perm.decomposeFin.symm (0, σ')).trans τ j.succ = τ (σ' j).succ := by simp
        rw [submatrix_apply, h1]
        have h2 := congrFun (congrFun g3 i) j
        rw [submatrix_apply, Matrix.mul_apply] at h2
        have h3 : ∑ l : Fin k, consCol x q' i l.succ * t l.succ j.succ = b' i (σ' j) := h2.symm
        rw [h3]
        have h4 : b' i (σ' j) = b i (σ' j) - x i 0 * (xᴴ * b) 0 (σ' j) := by
          rw [hb', Matrix.sub_apply]
          congr 1
          rw [Matrix.mul_apply, Fin.sum_univ_one]
        rw [h4]
        have h5 : consCol x q' i 0 * t 0 j.succ = x i 0 * (xᴴ * b) 0 (σ' j) := rfl
        rw [h5, add_sub_cancel]
        rfl
    · intro i j hij
      induction i using Fin.cases with
      | zero => exact absurd hij (by simp)
      | succ i =>
        induction j using Fin.cases with
        | zero => rfl
        | succ j => exact g4 i j (Fin.succ_lt_succ_iff.mp hij)
    · intro i j hij
      induction j using Fin.cases with
      | zero =>
        have : i = 0 := Fin.le_zero_iff.mp hij
        rw [this]
      | succ j =>
        induction i using Fin.cases with
        | zero =>
          change ‖t' j j‖ ≤ ‖((Real.sqrt (nsq a c) : ℝ) : ℂ)‖
          rw [hnc]
          exact hsmall j
        | succ i => exact g5 i j (Fin.succ_le_succ_iff.mp hij)
    · intro i
      refine ⟨c, ?_⟩
      induction i using Fin.cases with
      | zero =>
        change ‖((Real.sqrt (nsq a c) : ℝ) : ℂ)‖ ^ 2 ≤ _
        rw [hnc, Real.sq_sqrt (nsq_nonneg a c)]
      | succ i =>
        change ‖t' i i‖ ^ 2 ≤ _
        calc ‖t' i i‖ ^ 2 ≤ Real.sqrt (nsq a c) ^ 2 := by
              have := hsmall i
              have := norm_nonneg (t' i i)
              gcongr
          _ = nsq a c := Real.sq_sqrt (nsq_nonneg a c)

theorem exists_schur {k : ℕ} (m : Matrix (Fin k) (Fin k) ℂ) : ∃ d : Matrix (Fin k) (Fin k) ℂ × Matrix (Fin k) (Fin k) ℂ,
    m = d.2 * d.1 * d.2ᴴ ∧ d.2ᴴ * d.2 = 1 ∧ ∀ i j, j < i → d.1 i j = 0 := by
  obtain ⟨τ, hτ⟩ := exists_roots m
  obtain ⟨U, T, h1, h2, h3, _⟩ := schur_order m τ hτ
  refine ⟨(T, U), ?_, h1, h3⟩
  dsimp only
  rw [← h2, Matrix.mul_assoc, mul_eq_one_comm.mp h1, Matrix.mul_one]

open Classical in
/-- Exact numerical routines, with the given tolerances. -/
noncomputable def exactNumP (n : ℕ) (eps velEps : ℝ) : ModeNum n :=
  { exactNum n eps velEps with
    qrPivot := fun {k} a => if h : k + 0 ≤ n then (exists_qrPivot k 0 (0 : Matrix (Fin n) (Fin 0) ℂ) a h (Subsingleton.elim _ _)).choose else 0
    schur := fun m => (exists_schur m).choose
    argmax := fun f => (Finite.exists_max f).choose }

theorem exactNumP_ok (n : ℕ) {eps velEps : ℝ} (h1 : 0 < eps) (h2 : 0 < velEps) : (exactNumP n eps velEps).Ok := by
  have := exactNum_ok n h1 h2
  exact ⟨this.qr, this.solveRight, this.eigh, this.lstsq, this.argsort, h1, h2⟩

/-- The contracts can be met. -/
theorem exactNumP_phs (n : ℕ) {eps velEps : ℝ} : (exactNumP n eps velEps).PhsOk := by
  refine ⟨?_, fun m => (exists_schur m).choose_spec, fun f => (Finite.exists_max f).choose_spec⟩
  intro k a hk
  have hk' : k + 0 ≤ n := hk
  obtain ⟨σ, t, g1, _, g3, g4, g5, _⟩ := (exists_qrPivot k 0 (0 : Matrix (Fin n) (Fin 0) ℂ) a hk' (Subsingleton.elim _ _)).choose_spec
  have : (exactNumP n eps velEps).qrPivot a = (exists_qrPivot k 0 (0 : Matrix (Fin n) (Fin 0) ℂ) a hk' (Subsingleton.elim _ _)).choose := dif_pos hk'
  rw [this]
  exact ⟨g1, σ, t, g3, g4, g5⟩

/-! ### Examples: two wave functions with `P^2 = 1`, and four with `P^2 = -1` -/

def exP1 : Matrix (Fin 2) (Fin 2) ℂ := !![0, 1; 1, 0]

def exP2 : Matrix (Fin 4) (Fin 4) ℂ := !![0, 1, 0, 0; -1, 0, 0, 0; 0, 0, 0, 1; 0, 0, -1, 0]

theorem exP1_sq : exP1ᴴ * exP1 = 1 ∧ exP1 * conjM exP1 * 1 = 1 := by
  have h1 : conjM exP1 = exP1 := by
    ext i j
    fin_cases i <;> fin_cases j <;> simp [conjM, exP1]
  have h2 : exP1ᴴ = exP1 := by
    ext i j
    fin_cases i <;> fin_cases j <;> simp [exP1]
  have h3 : exP1 * exP1 = 1 := by
    ext i j
    fin_cases i <;> fin_cases j <;> simp [exP1]
  rw [h1, h2, h3, Matrix.mul_one]
  exact ⟨rfl, rfl⟩

theorem exP2_sq : exP2ᴴ * exP2 = 1 ∧ exP2 * conjM exP2 * 1 = -1 := by
  have h1 : conjM exP2 = exP2 := by
    ext i j
    fin_cases i <;> fin_cases j <;> simp [conjM, exP2]
  have h2 : exP2ᴴ = -exP2 := by
    ext i j
    fin_cases i <;> fin_cases j <;> simp [exP2]
  have h3 : exP2 * exP2 = -1 := by
    ext i j
    fin_cases i <;> fin_cases j <;> simp [exP2, Matrix.mul_apply, Fin.sum_univ_four]
  rw [h1, h2, Matrix.neg_mul, h3, Matrix.mul_one, neg_neg]
  exact ⟨rfl, rfl⟩

theorem phsPlus_example : ∃ V s, phsSymmetrization (exactNumP 2 1 1) exP1 (1 : Matrix (Fin 2) (Fin 2) ℂ) = .ok (V, s) ∧ (∀ j, exP1 *ᵥ star (V.col j) = V.col j) := by
  obtain ⟨V, s, h1, h2⟩ := phs_run (w := (1 : Matrix (Fin 2) (Fin 2) ℂ)) (exactNumP_phs 2 (eps := 1) (velEps := 1)) exP1_sq.1 (by simp)
    (by rw [conjTranspose_one, Matrix.one_mul, Matrix.one_mul]) (.inl exP1_sq.2)
  exact ⟨V, s, h1, (h2.plus exP1_sq.2).1⟩

theorem phsMinus_example : ∃ V s, phsSymmetrization (exactNumP 4 1 1) exP2 (1 : Matrix (Fin 4) (Fin 4) ℂ) = .ok (V, s) ∧ V.col 3 = exP2 *ᵥ star (V.col 2) := by
  obtain ⟨V, s, h1, h2⟩ := phs_run (w := (1 : Matrix (Fin 4) (Fin 4) ℂ)) (exactNumP_phs 4 (eps := 1) (velEps := 1)) exP2_sq.1 (by simp)
    (by rw [conjTranspose_one, Matrix.one_mul, Matrix.one_mul]) (.inr exP2_sq.2)
  exact ⟨V, s, h1, (h2.minus exP2_sq.2).2.1 1 (by norm_num)⟩

/-- Three eigenvalues, two of which are close to each other and on both sides of the branch cut of `np.sqrt`. -/
example : ‖sqrtVals (exactNumP 3 1 1) ![cexp ((3 : ℝ) * I), cexp ((-3 : ℝ) * I), 1] 0 - sqrtVals (exactNumP 3 1 1) ![cexp ((3 : ℝ) * I), cexp ((-3 : ℝ) * I), 1] 1‖ ≤
    ((2 : ℕ) + 1) / 2 * ‖cexp ((3 : ℝ) * I) - cexp ((-3 : ℝ) * I)‖ :=
  C155_roots (exactNumP_ok 3 one_pos one_pos) (exactNumP_phs 3) ![cexp ((3 : ℝ) * I), cexp ((-3 : ℝ) * I), 1] (by
    intro j
    fin_cases j
    · exact Complex.norm_exp_ofReal_mul_I 3
    · exact Complex.norm_exp_ofReal_mul_I (-3)
    · exact norm_one) 0 1

end Kwant.Leads
