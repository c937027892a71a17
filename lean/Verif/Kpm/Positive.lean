import Verif.Kpm.Integral
import Mathlib.Analysis.Matrix.Spectrum
import Mathlib.Analysis.SpecialFunctions.Trigonometric.DerivHyp
import Mathlib.LinearAlgebra.Eigenspace.Matrix

/-! The kernel polynomial approximation of the density of states is nonnegative (C123). -/

set_option linter.unusedSectionVars false

namespace Kwant.Kpm
open Polynomial Finset
open Matrix hiding map_apply

/-! ### Positive kernels -/

/-- The trigonometric polynomial of a kernel is nonnegative. -/
def PosKer (g : ℕ → ℝ) (N : ℕ) : Prop := ∀ φ : ℝ, 0 ≤ g 0 + 2 * ∑ n ∈ Ico 1 N, g n * Real.cos (n * φ)

/-- A sum over pairs, by their distance. -/
theorem sum_pairs (F : ℕ → ℕ → ℝ) (hF : ∀ i j, F i j = F j i) (N : ℕ) :
    ∑ i ∈ range N, ∑ j ∈ range N, F i j = ∑ i ∈ range N, F i i + 2 * ∑ n ∈ Ico 1 N, ∑ i ∈ range (N - n), F i (i + n) := by
  induction N with
  | zero => simp
  | succ N ih =>
    have h1 : ∑ i ∈ range (N + 1), ∑ j ∈ range (N + 1), F i j = ∑ i ∈ range N, ∑ j ∈ range N, F i j + 2 * ∑ i ∈ range N, F i N + F N N := by
      rw [sum_range_succ, sum_range_succ (fun j => F N j)]
      simp only [sum_range_succ _ N]
      rw [sum_add_distrib, sum_congr rfl fun j _ => hF N j]
      ring
    have h2 : ∑ n ∈ Ico 1 (N + 1), ∑ i ∈ range (N + 1 - n), F i (i + n) = ∑ n ∈ Ico 1 N, ∑ i ∈ range (N - n), F i (i + n) + ∑ i ∈ range N, F i N := by
      have h3 : ∀ n ∈ Ico 1 (N + 1), ∑ i ∈ range (N + 1 - n), F i (i + n) = ∑ i ∈ range (N - n), F i (i + n) + F (N - n) N := by
        intro n hn
        rw [mem_Ico] at hn
        rw [show N + 1 - n = N - n + 1 by omega, sum_range_succ, show N - n + n = N by omega]
      rw [sum_congr rfl h3, sum_add_distrib]
      congr 1
      · rcases Nat.eq_zero_or_pos N with rfl | hN
        · simp
        · rw [sum_Ico_succ_top (by omega)]; simp
      · rw [← sum_range_reflect, sum_Ico_eq_sum_range]
        apply sum_congr (by rw [Nat.add_sub_cancel])
        intro i _
        congr 1
        omega
    rw [h1, ih, h2, sum_range_succ]
    ring

/-- Autocorrelations are positive kernels. -/
theorem posKer_auto (x : ℕ → ℝ) (N : ℕ) : PosKer (fun n => ∑ i ∈ range (N - n), x i * x (i + n)) N := by
  intro φ
  have h := sum_pairs (fun i j => x i * x j * Real.cos (((i : ℝ) - j) * φ)) (fun i j => by
    rw [show ((i : ℝ) - j) * φ = -(((j : ℝ) - i) * φ) by ring, Real.cos_neg]; ring) N
  have h1 : ∑ i ∈ range N, ∑ j ∈ range N, x i * x j * Real.cos (((i : ℝ) - j) * φ)
      = (∑ i ∈ range N, x i * Real.cos (i * φ)) ^ 2 + (∑ i ∈ range N, x i * Real.sin (i * φ)) ^ 2 := by
    rw [pow_two, pow_two, sum_mul_sum, sum_mul_sum, ← sum_add_distrib]
    apply sum_congr rfl; intro i _
    rw [← sum_add_distrib]
    apply sum_congr rfl; intro j _
    rw [sub_mul, Real.cos_sub]; ring
  rw [h1] at h
  have h2 : ∑ i ∈ range N, x i * x i * Real.cos (((i : ℝ) - i) * φ) = ∑ i ∈ range (N - 0), x i * x (i + 0) :=
    sum_congr rfl fun i _ => by simp
  have h3 : ∑ n ∈ Ico 1 N, ∑ i ∈ range (N - n), x i * x (i + n) * Real.cos (((i : ℝ) - ((i + n : ℕ) : ℝ)) * φ)
      = ∑ n ∈ Ico 1 N, (∑ i ∈ range (N - n), x i * x (i + n)) * Real.cos (n * φ) := by
    apply sum_congr rfl; intro n _
    rw [sum_mul]
    apply sum_congr rfl; intro i _
    push_cast
    rw [show ((i : ℝ) - (i + n)) * φ = -(n * φ) by ring, Real.cos_neg]
  rw [h2, h3] at h
  show 0 ≤ (∑ i ∈ range (N - 0), x i * x (i + 0)) + _
  rw [← h]
  positivity

/-! ### The Jackson kernel -/

theorem sum_cos_arith (q α : ℝ) (M : ℕ) : Real.sin q * ∑ i ∈ range M, Real.cos ((2 * i + 1) * q + α) = Real.sin (M * q) * Real.cos (M * q + α) := by
  induction M with
  | zero => simp
  | succ M ih =>
    rw [sum_range_succ, mul_add, ih]
    push_cast
    have e1 : Real.sin (M * q) * Real.cos (M * q + α) = (Real.sin (2 * M * q + α) - Real.sin α) / 2 := by
      rw [show 2 * M * q + α = M * q + (M * q + α) by ring, Real.sin_add]
      have : Real.sin α = Real.sin ((M * q + α) - M * q) := by congr 1; ring
      rw [this, Real.sin_sub]; ring
    have e2 : Real.sin ((M + 1) * q) * Real.cos ((M + 1) * q + α) = (Real.sin (2 * (M + 1) * q + α) - Real.sin α) / 2 := by
      rw [show 2 * (M + 1) * q + α = (M + 1) * q + ((M + 1) * q + α) by ring, Real.sin_add ((M + 1) * q)]
      have : Real.sin α = Real.sin (((M + 1) * q + α) - (M + 1) * q) := by congr 1; ring
      rw [this, Real.sin_sub]; ring
    have e3 : Real.sin q * Real.cos ((2 * M + 1) * q + α) = (Real.sin (2 * (M + 1) * q + α) - Real.sin (2 * M * q + α)) / 2 := by
      rw [show 2 * (M + 1) * q + α = ((2 * M + 1) * q + α) + q by ring, show 2 * M * q + α = ((2 * M + 1) * q + α) - q by ring, Real.sin_add, Real.sin_sub]
      ring
    rw [e1, e2, e3]; ring

theorem jackson_auto (N n : ℕ) (hn : n < N) :
    ((N : ℝ) + 1) / 2 * jacksonArr N n = ∑ i ∈ range (N - n), Real.sin ((i + 1) * (Real.pi / (N + 1))) * Real.sin (((i + n : ℕ) + 1) * (Real.pi / (N + 1))) := by
  set q : ℝ := Real.pi / (N + 1) with hq
  have hN1 : (N : ℝ) + 1 ≠ 0 := by positivity
  have hNq : ((N : ℝ) + 1) * q = Real.pi := by rw [hq]; field_simp
  have hNpos : (1 : ℝ) ≤ N := by exact_mod_cast (show 1 ≤ N by omega)
  have hqpos : 0 < q := by rw [hq]; have := Real.pi_pos; positivity
  have hqlt : q < Real.pi := by nlinarith [Real.pi_pos]
  have hs : Real.sin q ≠ 0 := (Real.sin_pos_of_pos_of_lt_pi hqpos hqlt).ne'
  have key := sum_cos_arith q (((n : ℝ) + 1) * q) (N - n)
  have hM : ((N - n : ℕ) : ℝ) = N - n := by rw [Nat.cast_sub hn.le]
  rw [hM] at key
  have c1 : Real.cos (((N : ℝ) - n) * q + (n + 1) * q) = -1 := by
    rw [show ((N : ℝ) - n) * q + (n + 1) * q = (N + 1) * q by ring, hNq, Real.cos_pi]
  have c2 : Real.sin (((N : ℝ) - n) * q) = Real.sin (n * q) * Real.cos q + Real.cos (n * q) * Real.sin q := by
    rw [show ((N : ℝ) - n) * q = (N + 1) * q - (n * q + q) by ring, hNq, Real.sin_pi_sub, Real.sin_add]
  rw [c1, c2] at key
  have prod : ∀ i : ℕ, Real.sin ((i + 1) * q) * Real.sin (((i + n : ℕ) + 1) * q) = (Real.cos (n * q) - Real.cos ((2 * i + 1) * q + (n + 1) * q)) / 2 := by
    intro i
    push_cast
    have e1 : Real.cos (n * q) = Real.cos ((i + n + 1) * q - (i + 1) * q) := by congr 1; ring
    have e2 : Real.cos ((2 * i + 1) * q + (n + 1) * q) = Real.cos ((i + n + 1) * q + (i + 1) * q) := by congr 1; ring
    rw [e1, e2, Real.cos_sub, Real.cos_add]; ring
  simp only [prod]
  rw [← sum_div, sum_sub_distrib, sum_const, card_range, nsmul_eq_mul, hM]
  have hsum : ∑ i ∈ range (N - n), Real.cos ((2 * i + 1) * q + (n + 1) * q) = -(Real.sin (n * q) * Real.cos q / Real.sin q + Real.cos (n * q)) := by
    apply mul_left_cancel₀ hs
    rw [key]; field_simp
  rw [hsum]
  unfold jacksonArr
  rw [show Real.pi * n / ((N : ℝ) + 1) = n * q by rw [hq]; ring, ← hq, Real.tan_eq_sin_div_cos]
  field_simp
  ring

theorem posKer_jackson (N : ℕ) (hN : 0 < N) : PosKer (jacksonArr N) N := by
  intro φ
  have h := posKer_auto (fun i => Real.sin ((i + 1) * (Real.pi / (N + 1)))) N φ
  have h0 := jackson_auto N 0 hN
  have hs : ∑ n ∈ Ico 1 N, (∑ i ∈ range (N - n), Real.sin ((i + 1) * (Real.pi / (N + 1))) * Real.sin (((i + n : ℕ) + 1) * (Real.pi / (N + 1)))) * Real.cos (n * φ)
      = ((N : ℝ) + 1) / 2 * ∑ n ∈ Ico 1 N, jacksonArr N n * Real.cos (n * φ) := by
    rw [mul_sum]
    apply sum_congr rfl
    intro n hn
    rw [← jackson_auto N n (mem_Ico.mp hn).2]; ring
  simp only at h
  rw [hs, ← h0] at h
  have hp : (0 : ℝ) < ((N : ℝ) + 1) / 2 := by positivity
  have : 0 ≤ ((N : ℝ) + 1) / 2 * (jacksonArr N 0 + 2 * ∑ n ∈ Ico 1 N, jacksonArr N n * Real.cos (n * φ)) := by linarith
  exact nonneg_of_mul_nonneg_right this hp

/-! ### The Lorentz kernel -/

/-- Fejér's kernels. -/
theorem posKer_fejer (M N : ℕ) (hM : M ≤ N) : PosKer (fun n => ((M - n : ℕ) : ℝ)) N := by
  intro φ
  have h := posKer_auto (fun _ => 1) M φ
  simp only [mul_one, sum_const, card_range, nsmul_eq_mul] at h
  have : ∑ n ∈ Ico 1 N, ((M - n : ℕ) : ℝ) * Real.cos (n * φ) = ∑ n ∈ Ico 1 M, ((M - n : ℕ) : ℝ) * Real.cos (n * φ) := by
    rcases Nat.eq_zero_or_pos M with rfl | hM0
    · simp
    · symm
      apply sum_subset (Ico_subset_Ico le_rfl hM)
      intro n hn hn'
      rw [mem_Ico] at hn hn'
      rw [show M - n = 0 by omega]; simp
  simp only
  rw [this]; exact h

theorem posKer_comb (N : ℕ) (c : ℕ → ℝ) (hc : ∀ j, 0 ≤ c j) : PosKer (fun n => ∑ j ∈ range N, c j * ((N - j - n : ℕ) : ℝ)) N := by
  intro φ
  have : (∑ j ∈ range N, c j * ((N - j - 0 : ℕ) : ℝ)) + 2 * ∑ n ∈ Ico 1 N, (∑ j ∈ range N, c j * ((N - j - n : ℕ) : ℝ)) * Real.cos (n * φ)
      = ∑ j ∈ range N, c j * (((N - j - 0 : ℕ) : ℝ) + 2 * ∑ n ∈ Ico 1 N, ((N - j - n : ℕ) : ℝ) * Real.cos (n * φ)) := by
    simp only [mul_add, sum_add_distrib]
    congr 1
    simp only [sum_mul, mul_sum]
    rw [sum_comm]
    exact sum_congr rfl fun j _ => sum_congr rfl fun n _ => by ring
  simp only
  rw [this]
  exact sum_nonneg fun j _ => mul_nonneg (hc j) (posKer_fejer (N - j) N (by omega) φ)

/-- A sequence that starts with 0 as a combination of ramps. -/
theorem ramps (h : ℕ → ℝ) (h0 : h 0 = 0) (k : ℕ) :
    h k = ∑ j ∈ range k, (if j = 0 then h 1 else h (j - 1) - 2 * h j + h (j + 1)) * ((k - j : ℕ) : ℝ) := by
  have tel : ∀ k, ∑ j ∈ range (k + 1), (if j = 0 then h 1 else h (j - 1) - 2 * h j + h (j + 1)) = h (k + 1) - h k := by
    intro k
    induction k with
    | zero => simp [h0]
    | succ k ih => rw [sum_range_succ, ih, if_neg (by omega), Nat.add_sub_cancel]; ring
  induction k with
  | zero => simp [h0]
  | succ k ih =>
    have : ∀ j ∈ range (k + 1), (if j = 0 then h 1 else h (j - 1) - 2 * h j + h (j + 1)) * ((k + 1 - j : ℕ) : ℝ)
        = (if j = 0 then h 1 else h (j - 1) - 2 * h j + h (j + 1)) * ((k - j : ℕ) : ℝ) + (if j = 0 then h 1 else h (j - 1) - 2 * h j + h (j + 1)) := by
      intro j hj
      rw [mem_range] at hj
      rw [show k + 1 - j = (k - j) + 1 by omega]; push_cast; ring
    rw [sum_congr rfl this, sum_add_distrib, tel, sum_range_succ, ← ih]
    simp

theorem posKer_lorentz_pos (l : ℝ) (hl : 0 < l) (N : ℕ) (hN : 0 < N) : PosKer (lorentzArr l N) N := by
  have hN' : (0 : ℝ) < N := by exact_mod_cast hN
  set h : ℕ → ℝ := fun k => Real.sinh (k * (l / N)) / Real.sinh l with hh
  have hsl : 0 < Real.sinh l := Real.sinh_pos_iff.mpr hl
  have hnn : ∀ k, 0 ≤ h k := fun k => div_nonneg (Real.sinh_nonneg_iff.mpr (by positivity)) hsl.le
  have h0 : h 0 = 0 := by simp [hh]
  have hc : ∀ j, 0 ≤ (if j = 0 then h 1 else h (j - 1) - 2 * h j + h (j + 1)) := by
    intro j
    by_cases hj : j = 0
    · rw [if_pos hj]; exact hnn 1
    · rw [if_neg hj]
      have : h (j - 1) - 2 * h j + h (j + 1) = 2 * h j * (Real.cosh (l / N) - 1) := by
        simp only [hh]
        rw [Nat.cast_sub (by omega)]
        push_cast
        rw [sub_mul, add_mul, one_mul, Real.sinh_sub, Real.sinh_add]
        ring
      rw [this]
      exact mul_nonneg (mul_nonneg zero_le_two (hnn j)) (by have := Real.one_le_cosh (l / N); linarith)
  have hg : ∀ n, n ≤ N → lorentzArr l N n = ∑ j ∈ range N, (if j = 0 then h 1 else h (j - 1) - 2 * h j + h (j + 1)) * ((N - j - n : ℕ) : ℝ) := by
    intro n hn
    have e : lorentzArr l N n = h (N - n) := by
      unfold lorentzArr
      simp only [hh]
      congr 2
      rw [Nat.cast_sub hn]
      field_simp
    rw [e, ramps h h0 (N - n)]
    apply Finset.sum_subset_zero_on_sdiff (range_subset_range.mpr (by omega))
    · intro j hj
      rw [mem_sdiff, mem_range, mem_range] at hj
      rw [show N - j - n = 0 by omega]; simp
    · intro j _
      rw [show N - j - n = N - n - j by omega]
  intro φ
  have := posKer_comb N _ hc φ
  simp only at this
  rw [← hg 0 (by omega), sum_congr rfl fun n hn => by rw [← hg n (mem_Ico.mp hn).2.le]] at this
  exact this

theorem posKer_lorentz (l : ℝ) (hl : l ≠ 0) (N : ℕ) (hN : 0 < N) : PosKer (lorentzArr l N) N := by
  rcases lt_or_gt_of_ne hl with h | h
  · have := posKer_lorentz_pos (-l) (by linarith) N hN
    have e : lorentzArr l N = lorentzArr (-l) N := by
      funext n
      unfold lorentzArr
      rw [neg_mul, Real.sinh_neg, Real.sinh_neg, neg_div_neg_eq]
    rw [e]; exact this
  · exact posKer_lorentz_pos l h N hN

/-! ### Spectral decomposition -/

section
variable {d : ℕ}

/-- All eigenvalues of `H` are between `lo` and `hi`. -/
def SpectrumIn (H : Matrix (Fin d) (Fin d) ℂ) (lo hi : ℝ) : Prop := ∀ (x : ℝ) (v : Vec d), v ≠ 0 → H.mulVec v = (x : ℂ) • v → lo ≤ x ∧ x ≤ hi

theorem moments_spectral (H : Matrix (Fin d) (Fin d) ℂ) (hH : H.IsHermitian) (a b : ℝ) (ha : 0 < a) (hs : SpectrumIn H (b - a) (b + a)) (v : Vec d) :
    ∃ (θ w : Fin d → ℝ), (∀ k, 0 ≤ w k) ∧ ∀ n : ℕ, vdot v ((chebT H a b n).mulVec v) = ((∑ k, w k * Real.cos (n * θ k) : ℝ) : ℂ) := by
  set U : Matrix (Fin d) (Fin d) ℂ := hH.eigenvectorUnitary.val with hU
  have hUU : Uᴴ * U = 1 := (Matrix.mem_unitaryGroup_iff'.mp hH.eigenvectorUnitary.property)
  have hUU' : U * Uᴴ = 1 := mul_eq_one_comm.mp hUU
  have hsp := hH.spectral_theorem
  rw [Unitary.conjStarAlgAut_apply] at hsp
  have hsp' : H = U * diagonal (fun i => (hH.eigenvalues i : ℂ)) * Uᴴ := hsp
  set x : Fin d → ℝ := fun k => (hH.eigenvalues k - b) / a with hx
  have hmem : ∀ k, -1 ≤ x k ∧ x k ≤ 1 := by
    intro k
    have hne : (⇑(hH.eigenvectorBasis k) : Vec d) ≠ 0 := by
      intro h0
      have h1 := hH.eigenvectorBasis.orthonormal.1 k
      have : hH.eigenvectorBasis k = 0 := by ext i; exact congrFun h0 i
      rw [this, norm_zero] at h1
      exact zero_ne_one h1
    have hev := hH.mulVec_eigenvectorBasis k
    obtain ⟨h1, h2⟩ := hs (hH.eigenvalues k) _ hne (by rw [hev, ← Complex.coe_smul])
    simp only [hx]
    rw [le_div_iff₀ ha, div_le_iff₀ ha]
    constructor <;> linarith
  have hsc : scaled H a b = U * diagonal (fun k => (x k : ℂ)) * Uᴴ := by
    have e1 : diagonal (fun k => (x k : ℂ)) = (a : ℂ)⁻¹ • (diagonal (fun i => (hH.eigenvalues i : ℂ)) - (b : ℂ) • (1 : Matrix (Fin d) (Fin d) ℂ)) := by
      ext i j
      by_cases hij : i = j
      · subst hij; simp [hx, div_eq_inv_mul]
      · simp [hij]
    rw [e1, Matrix.mul_smul, Matrix.smul_mul, Matrix.mul_sub, Matrix.sub_mul, ← hsp', Matrix.mul_smul, Matrix.mul_one, Matrix.smul_mul, hUU']
    rfl
  have hT : ∀ n : ℕ, chebT H a b n = U * diagonal (fun k => (((Chebyshev.T ℝ (n : ℤ)).eval (x k) : ℝ) : ℂ)) * Uᴴ := by
    intro n
    induction n using Nat.strong_induction_on with
    | _ n ih =>
      match n with
      | 0 => rw [chebT_zero]; simp [hUU']
      | 1 => rw [chebT_one, hsc]; simp
      | n + 2 =>
        have e1 : diagonal (fun k => (((Chebyshev.T ℝ ((n + 2 : ℕ) : ℤ)).eval (x k) : ℝ) : ℂ)) =
            (2 : ℂ) • (diagonal (fun k => (x k : ℂ)) * diagonal (fun k => (((Chebyshev.T ℝ ((n + 1 : ℕ) : ℤ)).eval (x k) : ℝ) : ℂ)))
              - diagonal (fun k => (((Chebyshev.T ℝ (n : ℤ)).eval (x k) : ℝ) : ℂ)) := by
          rw [diagonal_mul_diagonal, ← diagonal_smul, diagonal_sub]
          congr 1
          funext k
          have e0 : (Chebyshev.T ℝ ((n + 2 : ℕ) : ℤ)).eval (x k) = 2 * (x k * (Chebyshev.T ℝ ((n + 1 : ℕ) : ℤ)).eval (x k)) - (Chebyshev.T ℝ (n : ℤ)).eval (x k) := by
            push_cast
            rw [Chebyshev.T_add_two]
            simp only [eval_sub, eval_mul, eval_X, eval_ofNat]
            ring
          rw [e0]
          simp only [Pi.sub_apply, Pi.smul_apply, smul_eq_mul, Complex.ofReal_sub, Complex.ofReal_mul, Complex.ofReal_ofNat]
        rw [chebT_add_two, ih (n + 1) (by omega), ih n (by omega), hsc, e1, Matrix.mul_sub, Matrix.sub_mul, Matrix.mul_smul, Matrix.smul_mul]
        congr 2
        calc U * diagonal (fun k => (x k : ℂ)) * Uᴴ * (U * diagonal (fun k => (((Chebyshev.T ℝ ((n + 1 : ℕ) : ℤ)).eval (x k) : ℝ) : ℂ)) * Uᴴ)
            = U * diagonal (fun k => (x k : ℂ)) * (Uᴴ * U) * diagonal (fun k => (((Chebyshev.T ℝ ((n + 1 : ℕ) : ℤ)).eval (x k) : ℝ) : ℂ)) * Uᴴ := by
              simp only [Matrix.mul_assoc]
          _ = _ := by rw [hUU, Matrix.mul_one]; simp only [Matrix.mul_assoc]
  refine ⟨fun k => Real.arccos (x k), fun k => ‖Uᴴ.mulVec v k‖ ^ 2, fun k => by positivity, fun n => ?_⟩
  rw [hT n, vdot_eq, ← mulVec_mulVec, ← mulVec_mulVec, dotProduct_mulVec]
  have e1 : star v ᵥ* U = star (Uᴴ.mulVec v) := by rw [star_mulVec, conjTranspose_conjTranspose]
  rw [e1, dotProduct, Complex.ofReal_sum]
  apply sum_congr rfl
  intro k _
  rw [mulVec_diagonal, Pi.star_apply]
  have e2 : (Chebyshev.T ℝ (n : ℤ)).eval (x k) = Real.cos (n * Real.arccos (x k)) := by
    conv_lhs => rw [← Real.cos_arccos (hmem k).1 (hmem k).2, Chebyshev.T_real_cos]
    simp
  rw [e2]
  have e3 : star (Uᴴ.mulVec v k) * Uᴴ.mulVec v k = ((‖Uᴴ.mulVec v k‖ : ℂ)) ^ 2 := by
    rw [Complex.star_def, mul_comm, Complex.mul_conj, Complex.normSq_eq_norm_sq]; push_cast; rfl
  rw [mul_left_comm, e3]
  push_cast
  ring

/-- The series of one energy is nonnegative. -/
theorem series_nonneg (g : ℕ → ℝ) (N : ℕ) (hg : PosKer g N) (φ : ℝ) {ι : Type} (s : Finset ι) (θ w : ι → ℝ) (hw : ∀ k, 0 ≤ w k) :
    0 ≤ g 0 * ∑ k ∈ s, w k * Real.cos ((0 : ℕ) * θ k) + ∑ n ∈ Ico 1 N, Real.cos (n * φ) * (2 * (g n * ∑ k ∈ s, w k * Real.cos (n * θ k))) := by
  have : g 0 * ∑ k ∈ s, w k * Real.cos ((0 : ℕ) * θ k) + ∑ n ∈ Ico 1 N, Real.cos (n * φ) * (2 * (g n * ∑ k ∈ s, w k * Real.cos (n * θ k)))
      = ∑ k ∈ s, w k / 2 * ((g 0 + 2 * ∑ n ∈ Ico 1 N, g n * Real.cos (n * (φ + θ k))) + (g 0 + 2 * ∑ n ∈ Ico 1 N, g n * Real.cos (n * (φ - θ k)))) := by
    have h1 : ∀ k ∈ s, w k / 2 * ((g 0 + 2 * ∑ n ∈ Ico 1 N, g n * Real.cos (n * (φ + θ k))) + (g 0 + 2 * ∑ n ∈ Ico 1 N, g n * Real.cos (n * (φ - θ k))))
        = g 0 * (w k * Real.cos ((0 : ℕ) * θ k)) + ∑ n ∈ Ico 1 N, Real.cos (n * φ) * (2 * (g n * (w k * Real.cos (n * θ k)))) := by
      intro k _
      have h2 : ∑ n ∈ Ico 1 N, Real.cos (n * φ) * (2 * (g n * (w k * Real.cos (n * θ k))))
          = w k * (∑ n ∈ Ico 1 N, g n * Real.cos (n * (φ + θ k)) + ∑ n ∈ Ico 1 N, g n * Real.cos (n * (φ - θ k))) := by
        rw [← sum_add_distrib, mul_sum]
        apply sum_congr rfl; intro n _
        rw [show (n : ℝ) * (φ + θ k) = n * φ + n * θ k by ring, show (n : ℝ) * (φ - θ k) = n * φ - n * θ k by ring, Real.cos_add, Real.cos_sub]; ring
      rw [h2]; simp; ring
    rw [sum_congr rfl h1, sum_add_distrib, ← mul_sum, sum_comm]
    congr 1
    apply sum_congr rfl; intro n _
    rw [mul_sum, mul_sum, mul_sum]
  rw [this]
  exact sum_nonneg fun k _ => mul_nonneg (div_nonneg (hw k) zero_le_two) (add_nonneg (hg _) (hg _))

/-- One vector. -/
theorem vec_series (H : Matrix (Fin d) (Fin d) ℂ) (hH : H.IsHermitian) (a b : ℝ) (ha : 0 < a) (hs : SpectrumIn H (b - a) (b + a)) (v : Vec d) (g : ℕ → ℝ) (N : ℕ) (hN : 0 < N)
    (hg : PosKer g N) (e : ℝ) (he : -1 ≤ e ∧ e ≤ 1) :
    ∃ y : ℝ, 0 ≤ y ∧ chebval e N (fun n => if n = 0 then g 0 • vdot v ((chebT H a b 0).mulVec v) else (2 : ℝ) • (g n • vdot v ((chebT H a b n).mulVec v))) = (y : ℂ) := by
  obtain ⟨θ, w, hw, hm⟩ := moments_spectral H hH a b ha hs v
  refine ⟨_, series_nonneg g N hg (Real.arccos e) univ θ w hw, ?_⟩
  unfold chebval
  rw [range_eq_Ico, sum_eq_sum_Ico_succ_bot hN]
  beta_reduce
  rw [if_pos rfl]
  push_cast
  have e1 : ∀ n : ℕ, (Chebyshev.T ℝ (n : ℤ)).eval e = Real.cos (n * Real.arccos e) := by
    intro n
    conv_lhs => rw [← Real.cos_arccos he.1 he.2, Chebyshev.T_real_cos]
    simp
  congr 1
  · rw [hm 0]; simp
  · apply sum_congr rfl
    intro n hn
    rw [mem_Ico] at hn
    rw [if_neg (by omega), hm n, e1 n]
    simp only [Complex.real_smul]
    push_cast
    ring

theorem chebval_avg {W : Type} [AddCommGroup W] [Module ℝ W] (e : ℝ) (N : ℕ) (nv : ℕ) (r : Option ℕ) (c : ℕ → ℕ → W) :
    chebval e N (fun n => avg nv r fun i => c i n) = avg nv r fun i => chebval e N (c i) := by
  unfold chebval
  rw [← avg_sum]

/-- C123.  For a density of states (`operator=None`) of a Hermitian Hamiltonian with the spectrum within `bounds`, with the Jackson kernel (the default) or with the
Lorentz kernel, the values returned for energies inside the bounds are real and nonnegative, whatever vectors are used. -/
theorem C123_positive (H : Matrix (Fin d) (Fin d) ℂ) (hH : H.IsHermitian) (src : ℕ → Vec d) (len : Option ℕ) (acc : Bool) (a b : ℝ) (ha : 0 < a)
    (hspec : SpectrumIn H (b - a) (b + a)) (s : SD (Vec d) ℂ) (hs : Reachable H (.dos vdot) src len acc a b s) (r : Option ℕ) (hr : ∀ i, r = some i → i < s.numVectors)
    (E : ℝ) (hE : b - a < E ∧ E < b + a) (l : ℝ) (hl : l ≠ 0) :
    (∃ y : ℝ, 0 ≤ y ∧ s.at jackson r E = y) ∧ ∃ y : ℝ, 0 ≤ y ∧ s.at (lorentz l) r E = y := by
  obtain ⟨h1, h2, h3, h4, hm⟩ := reachable_facts H _ (dos_ok H hH) src len acc a b s hs
  subst h1 h2
  have key : ∀ (K : Kernel ℂ) (g : ℕ → ℕ → ℝ), Diag K g → PosKer (g s.numMoments) s.numMoments → ∃ y : ℝ, 0 ≤ y ∧ s.at K r E = y := by
    intro K g hK hg
    set e := (E - s.b) / s.a with he
    have hem : -1 ≤ e ∧ e ≤ 1 := by
      rw [he, le_div_iff₀ ha, div_le_iff₀ ha]; constructor <;> linarith
    choose y hy0 hy using fun i : ℕ => vec_series H hH s.a s.b ha hspec (src i) (g s.numMoments) s.numMoments (by omega) hg e hem
    have hst : ∀ n < s.numMoments, s.stab K r n = s.a⁻¹ • avg s.numVectors r fun i => g s.numMoments n • vdot (src i) ((chebT H s.a s.b n).mulVec (src i)) := by
      intro n hn
      unfold SD.stab
      rw [hK, raw_eq s _ hm r hr n hn, smul_comm]
      congr 1
      cases r with
      | none => unfold avg; simp only; rw [smul_comm, smul_sum]; rfl
      | some i => rfl
    have hch : chebval e s.numMoments (fun n => if n = 0 then s.stab K r 0 else (2 : ℝ) • s.stab K r n)
        = s.a⁻¹ • avg s.numVectors r fun i => ((y i : ℝ) : ℂ) := by
      simp only [← hy]
      rw [← chebval_avg]
      unfold chebval
      rw [smul_sum]
      apply sum_congr rfl
      intro n hn
      rw [mem_range] at hn
      rw [smul_comm (s.a⁻¹)]
      congr 1
      by_cases hn0 : n = 0
      · subst hn0
        simp only [if_pos]
        rw [hst 0 hn]
      · simp only [if_neg hn0]
        rw [hst n hn, smul_comm (2 : ℝ)]
        congr 1
        cases r with
        | none => unfold avg; simp only; rw [smul_comm, smul_sum]
        | some i => rfl
    have hav : ∃ z : ℝ, 0 ≤ z ∧ (avg s.numVectors r fun i => ((y i : ℝ) : ℂ)) = z := by
      cases r with
      | none =>
        refine ⟨(s.numVectors : ℝ)⁻¹ * ∑ i ∈ range s.numVectors, y i, mul_nonneg (by positivity) (sum_nonneg fun i _ => hy0 i), ?_⟩
        unfold avg
        simp only
        rw [Complex.real_smul]; push_cast; rfl
      | some i => exact ⟨y i, hy0 i, rfl⟩
    obtain ⟨z, hz0, hz⟩ := hav
    refine ⟨(Real.pi * √(1 - e) * √(1 + e))⁻¹ * (s.a⁻¹ * z), ?_, ?_⟩
    · have := Real.pi_pos; positivity
    · unfold SD.at
      simp only
      rw [← he, hch, hz, Complex.real_smul, Complex.real_smul]
      push_cast; rfl
  exact ⟨key jackson jacksonArr (fun _ _ _ => rfl) (posKer_jackson _ (by omega)),
    key (lorentz l) (lorentzArr l) (fun _ _ _ => rfl) (posKer_lorentz l hl _ (by omega))⟩

/-- C123 (`densities`).  So are all elements of `densities`. -/
theorem C123_densities (H : Matrix (Fin d) (Fin d) ℂ) (hH : H.IsHermitian) (src : ℕ → Vec d) (len : Option ℕ) (acc : Bool) (a b : ℝ) (ha : 0 < a)
    (hspec : SpectrumIn H (b - a) (b + a)) (s : SD (Vec d) ℂ) (hs : Reachable H (.dos vdot) src len acc a b s) (r : Option ℕ) (hr : ∀ i, r = some i → i < s.numVectors)
    (l : ℝ) (hl : l ≠ 0) (k : ℕ) (hk : k < 2 * s.numMoments) :
    (∃ y : ℝ, 0 ≤ y ∧ s.density jackson r k = y) ∧ ∃ y : ℝ, 0 ≤ y ∧ s.density (lorentz l) r k = y := by
  obtain ⟨h1, h2, h3, h4, hm⟩ := reachable_facts H _ (dos_ok H hH) src len acc a b s hs
  subst h1 h2
  rw [C121_densities s ha _ r k hk, C121_densities s ha _ r k hk]
  exact C123_positive H hH src len acc s.a s.b ha hspec s hs r hr _ ((C121_energies s ha).1 k hk) l hl

theorem exH_spec : SpectrumIn exH (0 - 2) (0 + 2) := by
  intro x v hv h
  have h0 := congrFun h 0
  have h1 := congrFun h 1
  simp [exH, Matrix.mulVec, dotProduct, Fin.sum_univ_two] at h0 h1
  have hx : ((x : ℂ) * x - 1) * v 0 = 0 := by rw [sub_mul, mul_assoc, ← h0, one_mul, h1]; ring
  have hx1 : ((x : ℂ) * x - 1) * v 1 = 0 := by rw [sub_mul, mul_assoc, ← h1, one_mul, h0]; ring
  have hxx : (x : ℂ) * x - 1 = 0 := by
    by_contra hne
    apply hv
    ext i
    fin_cases i
    · exact (mul_eq_zero.mp hx).resolve_left hne
    · exact (mul_eq_zero.mp hx1).resolve_left hne
  have : x * x - 1 = 0 := by exact_mod_cast hxx
  constructor <;> nlinarith

/-- Without a kernel (`kernel=lambda m: m`) the density can be negative: one vector that is an eigenvector with the energy 1, three moments, at the energy -9/5.
The hypotheses of C123 hold. -/
theorem C123_counterexample : ∃ s : SD (Vec 2) ℂ, Reachable exH (.dos vdot) (fun _ => ![1, 1]) none true 2 0 s ∧
    (∃ y : ℝ, y < 0 ∧ s.at noKernel none (-(9 / 5)) = y) ∧ ∃ y : ℝ, 0 ≤ y ∧ s.at jackson none (-(9 / 5)) = y := by
  obtain ⟨s, _, h2, h3, h4⟩ := C119_init exH (.dos vdot) (dos_ok exH exH_herm) 1 (-1) 1 2 0 one_pos exRescale 3 1 (by norm_num) (by norm_num)
    (fun _ => some ![1, 1]) (fun _ => ![1, 1]) none true (fun i _ => rfl) (fun m hm => by cases hm)
  refine ⟨s, h4, ?_, (C123_positive exH exH_herm _ none true 2 0 (by norm_num) exH_spec s h4 none (fun i hi => by cases hi) _ (by norm_num) 4 (by norm_num)).1⟩
  obtain ⟨ha, hb, -, -, hm⟩ := reachable_facts exH _ (dos_ok exH exH_herm) _ none true 2 0 s h4
  have r0 : s.raw none 0 = 2 := by
    rw [raw_eq s _ hm none (fun i hi => by cases hi) 0 (by omega)]
    unfold avg
    simp only [h3, chebT_zero, one_mulVec, OpKind.val, sum_range_one]
    simp [vdot, Fin.sum_univ_two]; norm_num
  have r1 : s.raw none 1 = 1 := by
    rw [raw_eq s _ hm none (fun i hi => by cases hi) 1 (by omega)]
    unfold avg
    simp only [h3, chebT_one, OpKind.val, sum_range_one, ha, hb]
    simp [vdot, Fin.sum_univ_two, scaled, exH]; norm_num
  have r2 : s.raw none 2 = -1 := by
    have e2 := chebT_add_two exH 2 0 0
    rw [chebT_zero, zero_add, chebT_one] at e2
    rw [raw_eq s _ hm none (fun i hi => by cases hi) 2 (by omega)]
    unfold avg
    simp only [h3, OpKind.val, sum_range_one, ha, hb]
    rw [e2]
    simp [vdot, Fin.sum_univ_two, scaled, exH, Matrix.mul_fin_two, Matrix.one_fin_two]; norm_num
  have t2 : (Chebyshev.T ℝ 2).eval (-(9 / 10)) = 31 / 50 := by rw [Chebyshev.T_two]; norm_num
  refine ⟨(Real.pi * √(1 - -(9 / 10)) * √(1 + -(9 / 10)))⁻¹ * (-(13 / 25)), ?_, ?_⟩
  · have h5 : 0 < (Real.pi * √(1 - -(9 / 10)) * √(1 + -(9 / 10)))⁻¹ := by
      have := Real.pi_pos
      have : 0 < √((1 : ℝ) - -(9 / 10)) := Real.sqrt_pos.mpr (by norm_num)
      have : 0 < √((1 : ℝ) + -(9 / 10)) := Real.sqrt_pos.mpr (by norm_num)
      positivity
    nlinarith
  · unfold SD.at
    simp only [ha, hb]
    rw [show ((-(9 / 5) - 0) / 2 : ℝ) = -(9 / 10) by norm_num]
    unfold chebval SD.stab noKernel
    rw [h2, sum_range_succ, sum_range_succ, sum_range_one]
    simp only [Nat.cast_zero, Nat.cast_one, Chebyshev.T_zero, Chebyshev.T_one, eval_one, eval_X, if_pos, one_ne_zero, if_false, r0, r1, r2, t2, Nat.cast_ofNat, OfNat.ofNat_ne_zero, ha, Complex.real_smul]
    push_cast
    ring

end
end Kwant.Kpm
