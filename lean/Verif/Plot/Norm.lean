import Verif.Plot.Divergence
import Mathlib.MeasureTheory.Measure.Lebesgue.VolumeOfBalls
import Mathlib.MeasureTheory.Constructions.HaarToSphere
import Mathlib.Analysis.SpecialFunctions.Integrals.Basic

/-! C148: the normalization of the bump and of the interpolated density. -/

set_option linter.unusedSectionVars false

namespace Kwant.Plot

open Set MeasureTheory

variable {d : ℕ}

theorem radial {s : ℝ} (hs : 0 < s) (p : ℕ) : ∫ y in Ioi (0 : ℝ), y ^ p • phi ((s * y) ^ 2) = (1 / s) ^ (p + 1) * (1 / (p + 1) - 2 / (p + 3) + 1 / (p + 5)) := by
  have h1 : ∫ y in Ioi (0 : ℝ), y ^ p • phi ((s * y) ^ 2) = ∫ y in Ioc (0 : ℝ) (1 / s), y ^ p • phi ((s * y) ^ 2) := by
    apply setIntegral_eq_of_subset_of_forall_diff_eq_zero measurableSet_Ioi Ioc_subset_Ioi_self
    rintro y ⟨hy, hy'⟩
    have h2 : 1 / s < y := by
      by_contra h; exact hy' ⟨hy, not_lt.mp h⟩
    rw [phi_zero, smul_zero]
    have : 1 < s * y := by rwa [div_lt_iff₀ hs, mul_comm] at h2
    nlinarith
  have h0 : (0 : ℝ) ≤ 1 / s := by positivity
  rw [h1, ← intervalIntegral.integral_of_le h0]
  have h3 : ∫ y in (0 : ℝ)..1 / s, y ^ p • phi ((s * y) ^ 2) = ∫ y in (0 : ℝ)..1 / s, (y ^ p - 2 * s ^ 2 * y ^ (p + 2) + s ^ 4 * y ^ (p + 4)) := by
    refine intervalIntegral.integral_congr fun y hy => ?_
    rw [uIcc_of_le h0] at hy
    have h4 : s * y ≤ 1 := by have := hy.2; rwa [le_div_iff₀ hs, mul_comm] at this
    have h5 : 0 ≤ s * y := mul_nonneg hs.le hy.1
    simp only [smul_eq_mul]
    rw [phi, max_eq_left (by nlinarith)]
    ring
  rw [h3, intervalIntegral.integral_add, intervalIntegral.integral_sub, intervalIntegral.integral_const_mul, intervalIntegral.integral_const_mul, integral_pow, integral_pow, integral_pow]
  · have hp : ((p : ℝ) + 1) ≠ 0 := by positivity
    have hp3 : ((p : ℝ) + 3) ≠ 0 := by positivity
    have hp5 : ((p : ℝ) + 5) ≠ 0 := by positivity
    push_cast
    rw [show (p : ℝ) + 2 + 1 = p + 3 by ring, show (p : ℝ) + 4 + 1 = p + 5 by ring]
    have e2 : s ^ 2 * (1 / s) ^ (p + 2 + 1) = (1 / s) ^ (p + 1) := by
      rw [show p + 2 + 1 = (p + 1) + 2 by ring, pow_add]; field_simp
    have e4 : s ^ 4 * (1 / s) ^ (p + 4 + 1) = (1 / s) ^ (p + 1) := by
      rw [show p + 4 + 1 = (p + 1) + 4 by ring, pow_add]; field_simp
    rw [zero_pow (by omega), zero_pow (by omega), zero_pow (by omega)]
    calc _ = (1 / s) ^ (p + 1) / (p + 1) - 2 * (s ^ 2 * (1 / s) ^ (p + 2 + 1)) / (p + 3) + s ^ 4 * (1 / s) ^ (p + 4 + 1) / (p + 5) := by ring
      _ = _ := by rw [e2, e4]; ring
  all_goals exact Continuous.intervalIntegrable (by fun_prop) _ _

/-- C148.  The constants of the code are the integrals of the bump with radius 1: the integral of a bump with the given width is this constant times the d-th power of half the width. -/
theorem bump_integral {width : ℝ} (hw : 0 < width) (hd : 1 ≤ d) {a : ℝ} (ha : crossSections[d - 1]? = some a) : ∫ x : Fin d → ℝ, bumpAt width x = a * (width / 2) ^ d := by
  have hs : 0 < 2 / width := by positivity
  have : Nonempty (Fin d) := ⟨⟨0, hd⟩⟩
  have h1 : ∫ x : Fin d → ℝ, bumpAt width x = ∫ x : EuclideanSpace ℝ (Fin d), phi ((2 / width * ‖x‖) ^ 2) := by
    rw [← (PiLp.volume_preserving_toLp (Fin d)).integral_comp (MeasurableEquiv.toLp 2 (Fin d → ℝ)).measurableEmbedding]
    refine integral_congr_ae (Filter.Eventually.of_forall fun x => ?_)
    simp only
    rw [bumpAt_eq, mul_pow, EuclideanSpace.norm_sq_eq]
    congr 2
    exact Finset.sum_congr rfl fun e _ => by rw [Real.norm_eq_abs, sq_abs]; ring
  rw [h1, integral_fun_norm_addHaar volume (fun r => phi ((2 / width * r) ^ 2)), radial hs]
  rw [finrank_euclideanSpace_fin]
  have hw2 : 1 / (2 / width) = width / 2 := by field_simp
  rw [hw2, Nat.sub_add_cancel hd, Measure.real]
  have hd3 : d ≤ 3 := by
    by_contra h
    rw [List.getElem?_eq_none (by simp [crossSections]; omega)] at ha
    cases ha
  interval_cases d
  · have hv : volume (Metric.ball (0 : EuclideanSpace ℝ (Fin 1)) 1) = ENNReal.ofReal 2 := by
      norm_num [InnerProductSpace.volume_ball_of_dim_odd (k := 0) (by simp) (0 : EuclideanSpace ℝ (Fin 1))]
    rw [hv, ENNReal.toReal_ofReal (by norm_num)]
    simp only [crossSections, Nat.sub_self, List.getElem?_cons_zero, Option.some.injEq] at ha
    rw [← ha]
    norm_num
    ring
  · have hv : volume (Metric.ball (0 : EuclideanSpace ℝ (Fin 2)) 1) = ENNReal.ofReal Real.pi := by
      rw [EuclideanSpace.volume_ball_fin_two]; simp
    rw [hv, ENNReal.toReal_ofReal Real.pi_pos.le]
    simp only [crossSections, Nat.add_one_sub_one, List.getElem?_cons_succ, List.getElem?_cons_zero, Option.some.injEq] at ha
    rw [← ha]
    norm_num
    ring
  · have hv : volume (Metric.ball (0 : EuclideanSpace ℝ (Fin 3)) 1) = ENNReal.ofReal (Real.pi * 4 / 3) := by
      rw [EuclideanSpace.volume_ball_fin_three]; simp
    rw [hv, ENNReal.toReal_ofReal (by have := Real.pi_pos; positivity)]
    simp only [crossSections, Nat.add_one_sub_one, List.getElem?_cons_succ, List.getElem?_cons_zero, Option.some.injEq] at ha
    rw [← ha]
    norm_num
    ring

theorem bumpAt_compact {width : ℝ} (hw : 0 < width) : HasCompactSupport (bumpAt (d := d) width) := by
  refine HasCompactSupport.intro (isCompact_Icc (a := fun _ : Fin d => -(width / 2)) (b := fun _ => width / 2)) fun x hx => ?_
  obtain ⟨e, he⟩ : ∃ e, x e < -(width / 2) ∨ width / 2 < x e := by
    by_contra h
    push Not at h
    exact hx ⟨fun e => (h e).1, fun e => (h e).2⟩
  refine bumpAt_far hw e ?_
  rcases he with h | h
  · exact le_trans (by linarith) (neg_le_abs _)
  · exact le_trans h.le (le_abs_self _)

theorem bumpAt_integrable {width : ℝ} (hw : 0 < width) : Integrable (bumpAt (d := d) width) := (bumpAt_continuous width).integrable_of_hasCompactSupport (bumpAt_compact hw)

/-- C148.  The integral of the interpolated density (the function that is sampled on the grid, see `interpolateDensity_value`) is the sum of the densities in one dimension only:
in `d` dimensions it is too large by the power `d - 1` of half the width of the bumps. -/
theorem density_total_partial {width : ℝ} (hw : 0 < width) (hd : 1 ≤ d) {a : ℝ} (ha : crossSections[d - 1]? = some a) (pos : ℕ → Fin d → ℝ) {N : ℕ} {density : List ℝ} (hl : density.length = N) :
    ∫ x, (2 / width) / a * smoothDensity width pos N density x = (width / 2) ^ (d - 1) * density.sum := by
  have ha0 : a ≠ 0 := by
    have hm := List.mem_of_getElem? ha
    have hpi := Real.pi_pos
    simp only [crossSections, List.mem_cons, List.not_mem_nil, or_false] at hm
    rcases hm with rfl | rfl | rfl <;> positivity
  have h1 : ∀ l : List (ℕ × ℝ), Integrable (fun x : Fin d → ℝ => (l.map fun k => k.2 * bumpAt width fun e => x e - pos k.1 e).sum) ∧
      ∫ x : Fin d → ℝ, (l.map fun k => k.2 * bumpAt width fun e => x e - pos k.1 e).sum = (l.map Prod.snd).sum * (a * (width / 2) ^ d) := by
    intro l
    induction l with
    | nil => simp
    | cons k l ih =>
      have hi : Integrable fun x : Fin d → ℝ => bumpAt width fun e => x e - pos k.1 e := (bumpAt_integrable hw).comp_sub_right (pos k.1)
      have hv : ∫ x : Fin d → ℝ, bumpAt width (fun e => x e - pos k.1 e) = a * (width / 2) ^ d := by
        rw [← bump_integral hw hd ha]
        exact integral_sub_right_eq_self (bumpAt width) (pos k.1)
      simp only [List.map_cons, List.sum_cons]
      refine ⟨(hi.const_mul _).add ih.1, ?_⟩
      rw [integral_add (hi.const_mul _) ih.1, integral_const_mul, hv, ih.2]
      ring
  rw [integral_const_mul]
  unfold smoothDensity
  rw [(h1 _).2, List.map_snd_zip (by simp [hl])]
  obtain ⟨n, rfl⟩ : ∃ n, d = n + 1 := ⟨d - 1, by omega⟩
  rw [Nat.add_sub_cancel, pow_succ]
  field_simp

end Kwant.Plot
