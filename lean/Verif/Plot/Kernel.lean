import Verif.Plot.Spec
import Mathlib.MeasureTheory.Integral.DivergenceTheorem
import Mathlib.Analysis.Calculus.Deriv.Pow
import Mathlib.Analysis.Calculus.Deriv.Mul
import Mathlib.Analysis.Calculus.Deriv.Add
import Mathlib.Tactic.Linarith
import Mathlib.Tactic.FieldSimp

/-! The kernels are integrals of the bump. -/

set_option linter.unusedSectionVars false

namespace Kwant.Plot

open Set

variable {d : ℕ}

/-- The bump as a function of the square of the distance. -/
noncomputable def phi (s : ℝ) : ℝ := max (1 - s) 0 ^ 2

theorem phi_continuous : Continuous phi := by unfold phi; fun_prop

theorem phi_zero {s : ℝ} (h : 1 ≤ s) : phi s = 0 := by
  unfold phi; rw [max_eq_right (by linarith)]; norm_num

theorem bump_eq {r : ℝ} (h : 0 ≤ r) : bump r = phi (r ^ 2) := by
  simp only [bump]
  split
  · rw [phi_zero (by nlinarith)]; norm_num
  · rw [phi, max_eq_left (by nlinarith)]; ring

theorem sumSq_nonneg (x : Fin d → ℝ) : 0 ≤ sumSq x := Finset.sum_nonneg fun e _ => mul_self_nonneg _

theorem bumpAt_eq (width : ℝ) (x : Fin d → ℝ) : bumpAt width x = phi ((2 / width) ^ 2 * sumSq x) := by
  have : ∑ e, x e ^ 2 = sumSq x := Finset.sum_congr rfl fun e _ => by ring
  unfold bumpAt phi
  rw [this, show (2 * Real.sqrt (sumSq x) / width) ^ 2 = (2 / width) ^ 2 * Real.sqrt (sumSq x) ^ 2 by ring, Real.sq_sqrt (sumSq_nonneg x)]

/-- The function that is clipped. -/
noncomputable def poly (r m : ℝ) : ℝ := m * (m * m * (m * m / 5 - 2 / 3 * (r * r)) + r * r * (r * r)) + 8 / 15 * (r * r * (r * r)) * r

theorem smoothing_eq (rho z : ℝ) : smoothing rho z = poly (Real.sqrt (max (1 - rho * rho) 0)) (clip z (-Real.sqrt (max (1 - rho * rho) 0)) (Real.sqrt (max (1 - rho * rho) 0))) := by
  have : (if 1 - rho * rho < 0 then 0 else 1 - rho * rho) = max (1 - rho * rho) 0 := by
    split
    · rw [max_eq_right (by linarith)]
    · rw [max_eq_left (by linarith)]
  simp only [smoothing, this, poly]

theorem poly_deriv (r m : ℝ) : HasDerivAt (poly r) ((r * r - m * m) ^ 2) m := by
  have h : poly r = fun m => 1 / 5 * m ^ 5 - 2 / 3 * r ^ 2 * m ^ 3 + r ^ 4 * m + 8 / 15 * r ^ 5 := by funext m; unfold poly; ring
  rw [h]
  have h5 := (hasDerivAt_pow 5 m).const_mul (1 / 5 : ℝ)
  have h3 := (hasDerivAt_pow 3 m).const_mul (2 / 3 * r ^ 2)
  have h1 := (hasDerivAt_id m).const_mul (r ^ 4)
  have := ((HasDerivAt.sub h5 h3).add h1).add_const (8 / 15 * r ^ 5)
  refine this.congr_deriv ?_
  norm_num
  ring

theorem clip_mid {r z : ℝ} (h : |z| ≤ r) : clip z (-r) r = z := by
  obtain ⟨h1, h2⟩ := abs_le.mp h
  rw [clip, max_eq_left h1, min_eq_left h2]

theorem smoothing_continuous (rho : ℝ) : Continuous (smoothing rho) := by
  have : smoothing rho = fun z => poly (Real.sqrt (max (1 - rho * rho) 0)) (clip z (-Real.sqrt (max (1 - rho * rho) 0)) (Real.sqrt (max (1 - rho * rho) 0))) := funext (smoothing_eq rho)
  rw [this]
  unfold poly clip
  fun_prop

theorem smoothing_deriv (rho z : ℝ) (h : |z| ≠ Real.sqrt (max (1 - rho * rho) 0)) : HasDerivAt (smoothing rho) (phi (rho ^ 2 + z ^ 2)) z := by
  set r := Real.sqrt (max (1 - rho * rho) 0) with hr
  have hr0 : 0 ≤ r := Real.sqrt_nonneg _
  have hrr : r ^ 2 = max (1 - rho * rho) 0 := Real.sq_sqrt (le_max_right _ _)
  have e : smoothing rho = fun z => poly r (clip z (-r) r) := funext (smoothing_eq rho)
  rcases lt_or_gt_of_ne h with h | h
  · have hz : z ^ 2 < r ^ 2 := by rw [← sq_abs z]; exact pow_lt_pow_left₀ h (abs_nonneg z) two_ne_zero
    have h1 : r ^ 2 = 1 - rho * rho := by
      rcases max_cases (1 - rho * rho) 0 with ⟨h1, -⟩ | ⟨h1, -⟩
      · rw [hrr, h1]
      · rw [h1] at hrr; nlinarith [sq_nonneg z]
    have h2 : phi (rho ^ 2 + z ^ 2) = (r * r - z * z) ^ 2 := by
      unfold phi
      rw [max_eq_left (by nlinarith)]
      congr 1
      nlinarith
    rw [h2]
    refine (poly_deriv r z).congr_of_eventuallyEq ?_
    have : ∀ᶠ y in nhds z, |y| < r := (continuous_abs.tendsto z).eventually (gt_mem_nhds h)
    filter_upwards [this] with y hy
    rw [e]
    simp only [clip_mid hy.le]
  · have hz : r ^ 2 < z ^ 2 := by rw [← sq_abs z]; exact pow_lt_pow_left₀ h hr0 two_ne_zero
    have h2 : phi (rho ^ 2 + z ^ 2) = 0 := phi_zero (by nlinarith [le_max_left (1 - rho * rho) 0])
    rw [h2]
    rcases le_total 0 z with h0 | h0
    · rw [abs_of_nonneg h0] at h
      refine (hasDerivAt_const z (poly r r)).congr_of_eventuallyEq ?_
      filter_upwards [lt_mem_nhds h] with y hy
      rw [e]
      simp only [clip, max_eq_left (by linarith : -r ≤ y), min_eq_right hy.le]
    · rw [abs_of_nonpos h0] at h
      refine (hasDerivAt_const z (poly r (-r))).congr_of_eventuallyEq ?_
      filter_upwards [gt_mem_nhds (show z < -r by linarith)] with y hy
      rw [e]
      simp only [clip, max_eq_right hy.le, min_eq_left (by linarith : -r ≤ r)]

/-- The smoothing function is the integral of the bump along the hopping. -/
theorem smoothing_integral (rho z L : ℝ) : smoothing rho z - smoothing rho (z - L) = ∫ s in (0 : ℝ)..L, phi (rho ^ 2 + (z - s) ^ 2) := by
  have h1 := intervalIntegral.integral_comp_sub_left (a := 0) (b := L) (fun y => phi (rho ^ 2 + y ^ 2)) z
  rw [h1, sub_zero]
  have hc : Continuous fun y : ℝ => phi (rho ^ 2 + y ^ 2) := phi_continuous.comp (by fun_prop)
  refine (MeasureTheory.integral_eq_of_hasDerivAt_off_countable (smoothing rho) (fun y => phi (rho ^ 2 + y ^ 2)) (s := {y | |y| = Real.sqrt (max (1 - rho * rho) 0)}) ?_
    (smoothing_continuous rho).continuousOn ?_ (hc.intervalIntegrable _ _)).symm
  · refine Set.Countable.mono (s₂ := {Real.sqrt (max (1 - rho * rho) 0), -Real.sqrt (max (1 - rho * rho) 0)}) ?_ (by simp)
    intro y hy
    exact eq_or_eq_neg_of_abs_eq hy
  · intro y hy
    exact smoothing_deriv rho y hy.2

theorem sumSq_line (y n : Fin d → ℝ) (hn : sumSq n = 1) (s : ℝ) : sumSq (fun e => y e - s * n e) = sumSq y - (∑ e, y e * n e) ^ 2 + ((∑ e, y e * n e) - s) ^ 2 := by
  have : sumSq (fun e => y e - s * n e) = sumSq y - 2 * s * (∑ e, y e * n e) + s ^ 2 * sumSq n := by
    unfold sumSq
    rw [Finset.mul_sum, Finset.mul_sum, ← Finset.sum_sub_distrib, ← Finset.sum_add_distrib]
    exact Finset.sum_congr rfl fun e _ => by ring
  rw [this, hn]; ring

/-- The kernel of a current is the integral of the bump along the hopping. -/
theorem currentKernel_unit (n : Fin d → ℝ) (hn : sumSq n = 1) (L : ℝ) (y : Fin d → ℝ) (c : Fin d) : currentKernel n L y c = n c * ∫ s in (0 : ℝ)..L, phi (sumSq fun e => y e - s * n e) := by
  simp only [currentKernel]
  have h0 : 0 ≤ sumSq y - (∑ e, y e * n e) ^ 2 := by
    have := sumSq_line y n hn (∑ e, y e * n e)
    rw [sub_self] at this
    have h2 := sumSq_nonneg fun e => y e - (∑ e, y e * n e) * n e
    nlinarith
  rw [smoothing_integral]
  congr 1
  refine intervalIntegral.integral_congr fun s _ => ?_
  rw [sumSq_line y n hn s, ← pow_two, Real.sq_sqrt (abs_nonneg _), abs_of_nonneg h0]

theorem sumSq_smul (a : ℝ) (x : Fin d → ℝ) : sumSq (fun e => a * x e) = a ^ 2 * sumSq x := by
  unfold sumSq; rw [Finset.mul_sum]; exact Finset.sum_congr rfl fun e _ => by ring

theorem currentKernel_eq (el : Elem d) (width : ℝ) (x : Fin d → ℝ) (c : Fin d) :
    currentKernel el.dir (el.len * (2 / width)) (fun e => (x e - el.p0 e) * (2 / width)) c = 2 / width * lineField width el.p0 el.p1 x c := by
  have hl : el.len ^ 2 = sumSq fun e => el.p1 e - el.p0 e := Real.sq_sqrt (sumSq_nonneg _)
  by_cases h0 : el.len = 0
  · have h1 : el.p1 c - el.p0 c = 0 := by
      rw [h0, zero_pow two_ne_zero] at hl
      have := (Finset.sum_eq_zero_iff_of_nonneg (fun e _ => mul_self_nonneg (el.p1 e - el.p0 e))).mp hl.symm c (Finset.mem_univ c)
      exact mul_self_eq_zero.mp this
    simp [currentKernel, lineField, Elem.dir, h0, h1]
  · have hn : sumSq el.dir = 1 := by
      have : el.dir = fun e => el.len⁻¹ * (el.p1 e - el.p0 e) := by funext e; rw [Elem.dir, div_eq_inv_mul]
      rw [this, sumSq_smul, ← hl]
      field_simp
    rw [currentKernel_unit _ hn]
    have e1 : ∫ s in (0 : ℝ)..el.len * (2 / width), phi (sumSq fun e => (x e - el.p0 e) * (2 / width) - s * el.dir e) =
        el.len * (2 / width) * ∫ t in (0 : ℝ)..1, bumpAt width (fun e => x e - (el.p0 e + t * (el.p1 e - el.p0 e))) := by
      have h2 := intervalIntegral.smul_integral_comp_mul_left (a := (0 : ℝ)) (b := 1) (f := fun s => phi (sumSq fun e => (x e - el.p0 e) * (2 / width) - s * el.dir e)) (el.len * (2 / width))
      rw [mul_zero, mul_one, smul_eq_mul] at h2
      rw [← h2]
      congr 1
      refine intervalIntegral.integral_congr fun t _ => ?_
      rw [bumpAt_eq, ← sumSq_smul]
      congr 2
      funext e
      unfold Elem.dir
      field_simp
      ring
    rw [e1, lineField, intervalIntegral.integral_mul_const, Elem.dir]
    field_simp

theorem densityKernel_eq (width : ℝ) (x p : Fin d → ℝ) (c : Fin 1) : densityKernel (fun e => (x e - p e) * (2 / width)) c = bumpAt width fun e => x e - p e := by
  rw [densityKernel, bump_eq (Real.sqrt_nonneg _), Real.sq_sqrt (sumSq_nonneg _), bumpAt_eq, ← sumSq_smul]
  congr 2
  funext e
  ring

theorem bumpAt_far {width : ℝ} (hw : 0 < width) {x : Fin d → ℝ} (e : Fin d) (h : width / 2 ≤ |x e|) : bumpAt width x = 0 := by
  rw [bumpAt_eq]
  refine phi_zero ?_
  have h1 : x e * x e ≤ sumSq x := Finset.single_le_sum (f := fun e => x e * x e) (fun e _ => mul_self_nonneg _) (Finset.mem_univ e)
  have h2 : (width / 2) ^ 2 ≤ x e ^ 2 := by rw [← sq_abs (x e)]; exact pow_le_pow_left₀ (by positivity) h 2
  have h3 : (2 / width) ^ 2 * (width / 2) ^ 2 = 1 := by field_simp
  have h4 : 0 ≤ (2 / width) ^ 2 := sq_nonneg _
  nlinarith

/-- Lines that are far from the point in some direction do not contribute. -/
theorem lineField_far {width : ℝ} (hw : 0 < width) {p q x : Fin d → ℝ} (e : Fin d) (c : Fin d) (h : x e ≤ min (p e) (q e) - width / 2 ∨ max (p e) (q e) + width / 2 ≤ x e) : lineField width p q x c = 0 := by
  unfold lineField
  rw [intervalIntegral.integral_congr (g := fun _ => 0) ?_]
  · simp
  · intro t ht
    rw [uIcc_of_le zero_le_one] at ht
    simp only
    rw [bumpAt_far hw e, zero_mul]
    have a1 : min (p e) (q e) ≤ p e + t * (q e - p e) := by
      have := min_le_left (p e) (q e); have := min_le_right (p e) (q e)
      nlinarith [ht.1, ht.2]
    have a2 : p e + t * (q e - p e) ≤ max (p e) (q e) := by
      have := le_max_left (p e) (q e); have := le_max_right (p e) (q e)
      nlinarith [ht.1, ht.2]
    rcases h with h | h
    · rw [abs_sub_comm]; exact le_trans (by linarith) (le_abs_self _)
    · exact le_trans (by linarith) (le_abs_self _)

end Kwant.Plot
