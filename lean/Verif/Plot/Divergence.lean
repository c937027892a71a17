import Verif.Plot.Density
import Mathlib.Analysis.Calculus.ParametricIntervalIntegral
import Mathlib.MeasureTheory.Integral.IntervalIntegral.FundThmCalculus

/-! C147: the divergence of the interpolated current. -/

set_option linter.unusedSectionVars false

namespace Kwant.Plot

open Set MeasureTheory

variable {d : ℕ}

theorem phi_deriv (s : ℝ) : HasDerivAt phi (-2 * max (1 - s) 0) s := by
  have hp : ∀ s : ℝ, HasDerivAt (fun s : ℝ => (1 - s) ^ 2) (-2 * (1 - s)) s := fun s => by
    have := ((hasDerivAt_id s).const_sub 1).pow 2
    refine this.congr_deriv ?_
    simp
  rcases lt_trichotomy s 1 with h | rfl | h
  · rw [max_eq_left (by linarith)]
    refine (hp s).congr_of_eventuallyEq ?_
    filter_upwards [gt_mem_nhds h] with y hy
    rw [phi, max_eq_left (by linarith)]
  · rw [sub_self, max_self, mul_zero]
    have h1 : HasDerivWithinAt phi 0 (Iic 1) 1 := by
      have := (hp 1).hasDerivWithinAt (s := Iic 1)
      rw [sub_self, mul_zero] at this
      refine this.congr (fun y hy => ?_) ?_
      · rw [phi, max_eq_left (by have : y ≤ 1 := hy; linarith)]
      · rw [phi, max_eq_left (by norm_num)]
    have h2 : HasDerivWithinAt phi 0 (Ici 1) 1 := by
      refine (hasDerivWithinAt_const (1 : ℝ) (Ici 1) (0 : ℝ)).congr (fun y hy => phi_zero hy) (phi_zero le_rfl)
    have := h1.union h2
    rw [Iic_union_Ici] at this
    exact hasDerivWithinAt_univ.mp this
  · rw [max_eq_right (by linarith), mul_zero]
    refine (hasDerivAt_const s (0 : ℝ)).congr_of_eventuallyEq ?_
    filter_upwards [lt_mem_nhds h] with y hy
    exact phi_zero hy.le

/-- The slope of the bump, as a function of the vector. -/
noncomputable def slope (width : ℝ) (y : Fin d → ℝ) : ℝ := -2 * max (1 - (2 / width) ^ 2 * sumSq y) 0

theorem bumpAt_deriv (width : ℝ) {z : ℝ → Fin d → ℝ} {z' : Fin d → ℝ} {u : ℝ} (h : ∀ e, HasDerivAt (fun u => z u e) (z' e) u) :
    HasDerivAt (fun u => bumpAt width (z u)) (slope width (z u) * ((2 / width) ^ 2 * (2 * ∑ e, z u e * z' e))) u := by
  have h1 : HasDerivAt (fun u => (2 / width) ^ 2 * sumSq (z u)) ((2 / width) ^ 2 * ∑ e, (z' e * z u e + z u e * z' e)) u :=
    (HasDerivAt.fun_sum fun e _ => (h e).mul (h e)).const_mul _
  have h2 := (phi_deriv ((2 / width) ^ 2 * sumSq (z u))).comp u h1
  have e1 : (fun u => bumpAt width (z u)) = phi ∘ fun u => (2 / width) ^ 2 * sumSq (z u) := by funext u; rw [bumpAt_eq]; rfl
  rw [e1]
  refine h2.congr_deriv ?_
  rw [slope]
  congr 2
  rw [Finset.mul_sum]
  exact Finset.sum_congr rfl fun e _ => by ring

theorem slope_bound (width : ℝ) (y : Fin d → ℝ) : |slope width y| ≤ 2 := by
  rw [slope, abs_mul, abs_of_nonneg (a := max (1 - (2 / width) ^ 2 * sumSq y) 0) (le_max_right _ _)]
  have : max (1 - (2 / width) ^ 2 * sumSq y) 0 ≤ 1 := max_le (by have := mul_nonneg (sq_nonneg (2 / width)) (sumSq_nonneg y); linarith) zero_le_one
  rw [abs_neg, abs_two]; linarith

theorem slope_continuous (width : ℝ) : Continuous (slope (d := d) width) := by unfold slope sumSq; fun_prop

theorem bumpAt_continuous (width : ℝ) : Continuous (bumpAt (d := d) width) := by unfold bumpAt; fun_prop

/-- The vector from a point of the hopping. -/
def off (p q x : Fin d → ℝ) (t : ℝ) (e : Fin d) : ℝ := x e - (p e + t * (q e - p e))

theorem off_continuous (p q x : Fin d → ℝ) : Continuous (off p q x) := by unfold off; fun_prop

/-- The field of one hopping is differentiable in every direction. -/
theorem lineField_deriv (width : ℝ) (p q x : Fin d → ℝ) (e : Fin d) :
    HasDerivAt (fun u => lineField width p q (Function.update x e u) e) (∫ t in (0 : ℝ)..1, slope width (off p q x t) * ((2 / width) ^ 2 * (2 * off p q x t e)) * (q e - p e)) (x e) := by
  have hoff : ∀ u t, off p q (Function.update x e u) t e = u - (p e + t * (q e - p e)) := by intro u t; simp [off]
  have key := intervalIntegral.hasDerivAt_integral_of_dominated_loc_of_deriv_le (𝕜 := ℝ) (μ := volume) (a := 0) (b := 1) (x₀ := x e) (s := Metric.ball (x e) 1)
    (F := fun u t => bumpAt width (off p q (Function.update x e u) t) * (q e - p e))
    (F' := fun u t => slope width (off p q (Function.update x e u) t) * ((2 / width) ^ 2 * (2 * off p q (Function.update x e u) t e)) * (q e - p e))
    (bound := fun _ => 2 * ((2 / width) ^ 2 * (2 * (|x e| + 1 + |p e| + |q e - p e|))) * |q e - p e|)
    (Metric.ball_mem_nhds _ one_pos)
    (Filter.Eventually.of_forall fun u => (((bumpAt_continuous width).comp (off_continuous p q _)).mul continuous_const).aestronglyMeasurable)
    ((((bumpAt_continuous width).comp (off_continuous p q _)).mul continuous_const).intervalIntegrable _ _)
    (by
      refine Continuous.aestronglyMeasurable ?_
      have := (slope_continuous width).comp (off_continuous p q (Function.update x e (x e)))
      have h2 := (continuous_apply e).comp (off_continuous p q (Function.update x e (x e)))
      exact (this.mul (continuous_const.mul (continuous_const.mul h2))).mul continuous_const)
    (Filter.Eventually.of_forall fun t ht u hu => by
      rw [uIoc_of_le zero_le_one] at ht
      rw [Metric.mem_ball, Real.dist_eq] at hu
      have h1 : |off p q (Function.update x e u) t e| ≤ |x e| + 1 + |p e| + |q e - p e| := by
        rw [hoff]
        have a1 : |u - x e + x e| ≤ |u - x e| + |x e| := abs_add_le _ _
        have a2 : |p e + t * (q e - p e)| ≤ |p e| + |t * (q e - p e)| := abs_add_le _ _
        have a3 : |t * (q e - p e)| ≤ |q e - p e| := by
          rw [abs_mul, abs_of_pos ht.1]
          exact mul_le_of_le_one_left (abs_nonneg _) ht.2
        have a4 : |u - (p e + t * (q e - p e))| ≤ |u| + |p e + t * (q e - p e)| := abs_sub _ _
        rw [sub_add_cancel] at a1
        linarith
      rw [Real.norm_eq_abs, abs_mul, abs_mul, abs_mul, abs_mul, abs_of_nonneg (sq_nonneg (2 / width)), abs_two]
      refine mul_le_mul_of_nonneg_right (mul_le_mul (slope_bound _ _) ?_ (by positivity) (by norm_num)) (abs_nonneg _)
      exact mul_le_mul_of_nonneg_left (by linarith) (sq_nonneg _))
    (continuous_const.intervalIntegrable _ _)
    (Filter.Eventually.of_forall fun t _ u _ => by
      have h1 : ∀ e', HasDerivAt (fun u => off p q (Function.update x e u) t e') (if e' = e then 1 else 0) u := by
        intro e'
        by_cases he : e' = e
        · subst he
          simp only [hoff, if_true]
          exact (hasDerivAt_id u).sub_const _
        · simp only [off, if_neg he, Function.update_of_ne he]
          exact hasDerivAt_const _ _
      have h2 := (bumpAt_deriv width h1).mul_const (q e - p e)
      refine h2.congr_deriv ?_
      simp)
  have h2 := key.2
  rw [Function.update_eq_self] at h2
  exact h2

/-- A hopping is a source at one end and a sink at the other. -/
theorem lineField_divergence (width : ℝ) (p q x : Fin d → ℝ) : divergence (lineField width p q) x = bumpAt width (fun e => x e - p e) - bumpAt width fun e => x e - q e := by
  unfold divergence
  rw [Finset.sum_congr rfl fun e _ => (lineField_deriv width p q x e).deriv]
  have hc : ∀ e, Continuous fun t => slope width (off p q x t) * ((2 / width) ^ 2 * (2 * off p q x t e)) * (q e - p e) := fun e => by
    have := (slope_continuous width).comp (off_continuous p q x)
    have h2 := (continuous_apply e).comp (off_continuous p q x)
    exact (this.mul (continuous_const.mul (continuous_const.mul h2))).mul continuous_const
  rw [← intervalIntegral.integral_finsetSum fun e _ => (hc e).intervalIntegrable _ _]
  have hd : ∀ t : ℝ, HasDerivAt (fun t => - bumpAt width (off p q x t)) (∑ e, slope width (off p q x t) * ((2 / width) ^ 2 * (2 * off p q x t e)) * (q e - p e)) t := by
    intro t
    have h1 : ∀ e, HasDerivAt (fun t => off p q x t e) (-(q e - p e)) t := fun e => by
      have := (((hasDerivAt_id t).mul_const (q e - p e)).const_add (p e)).const_sub (x e)
      refine this.congr_deriv ?_
      ring
    refine (bumpAt_deriv width h1).neg.congr_deriv ?_
    rw [Finset.mul_sum, Finset.mul_sum, Finset.mul_sum, ← Finset.sum_neg_distrib]
    exact Finset.sum_congr rfl fun e _ => by ring
  rw [intervalIntegral.integral_eq_sub_of_hasDerivAt (fun t _ => hd t) ((continuous_finsetSum _ fun e _ => hc e).intervalIntegrable _ _)]
  have e0 : off p q x 0 = fun e => x e - p e := by funext e; simp [off]
  have e1 : off p q x 1 = fun e => x e - q e := by funext e; simp [off]
  rw [e0, e1]; ring

theorem zip_range (N : ℕ) (f : ℕ → ℝ) : (List.range N).zip ((List.range N).map f) = (List.range N).map fun s => (s, f s) := by
  apply List.ext_getElem <;> simp

theorem list_sum_deriv {α : Type*} (l : List α) (w : α → ℝ) (F : α → ℝ → ℝ) (u : ℝ) (h : ∀ k, DifferentiableAt ℝ (F k) u) :
    DifferentiableAt ℝ (fun t => (l.map fun k => w k * F k t).sum) u ∧ deriv (fun t => (l.map fun k => w k * F k t).sum) u = (l.map fun k => w k * deriv (F k) u).sum := by
  induction l with
  | nil => simp
  | cons k l ih =>
    simp only [List.map_cons, List.sum_cons]
    have h1 := ((h k).const_mul (w k))
    refine ⟨h1.add ih.1, ?_⟩
    rw [deriv_fun_add h1 ih.1, ih.2, deriv_const_mul _ (h k)]

theorem finset_list_sum {α : Type*} (l : List α) (w : α → ℝ) (G : α → Fin d → ℝ) : ∑ e, (l.map fun k => w k * G k e).sum = (l.map fun k => w k * ∑ e, G k e).sum := by
  induction l with
  | nil => simp
  | cons k l ih => simp only [List.map_cons, List.sum_cons, Finset.sum_add_distrib, ih, Finset.mul_sum]

/-- C147.  The convoluted current is differentiable, and its divergence is the current that leaves the sites, convoluted with the same bump. -/
theorem smoothCurrent_divergence (width : ℝ) (pos : ℕ → Fin d → ℝ) (N : ℕ) (edges : List (ℕ × ℕ)) (hN : ∀ k ∈ edges, k.1 < N ∧ k.2 < N) (current : List ℝ) (x : Fin d → ℝ) :
    (∀ e, DifferentiableAt ℝ (fun t => smoothCurrent width pos edges current (Function.update x e t) e) (x e)) ∧
    divergence (smoothCurrent width pos edges current) x = smoothDensity width pos N ((List.range N).map (outflow edges current)) x := by
  have hl := fun e => list_sum_deriv (edges.zip current) (fun k => k.2) (fun k t => lineField width (pos k.1.2) (pos k.1.1) (Function.update x e t) e) (x e)
    (fun k => (lineField_deriv width _ _ x e).differentiableAt)
  refine ⟨fun e => (hl e).1.const_mul _, ?_⟩
  have h1 : divergence (smoothCurrent width pos edges current) x = 1 / 2 * ((edges.zip current).map fun k => k.2 * (bumpAt width (fun e => x e - pos k.1.2 e) - bumpAt width fun e => x e - pos k.1.1 e)).sum := by
    unfold divergence smoothCurrent
    rw [Finset.sum_congr rfl fun e _ => deriv_const_mul _ (hl e).1, ← Finset.mul_sum]
    congr 1
    rw [Finset.sum_congr rfl fun e _ => (hl e).2, finset_list_sum]
    congr 1
    refine List.map_congr_left fun k _ => ?_
    rw [← lineField_divergence]
    rfl
  rw [h1]
  have h2 : smoothDensity width pos N ((List.range N).map (outflow edges current)) x = ∑ s ∈ Finset.range N, outflow edges current s * bumpAt width fun e => x e - pos s e := by
    unfold smoothDensity
    rw [zip_range, List.map_map, Finset.sum_range, ← List.sum_ofFn]
    congr 1
    apply List.ext_getElem <;> simp
  rw [h2]
  unfold outflow
  have hz : ∀ k ∈ edges.zip current, k.1.1 < N ∧ k.1.2 < N := fun k hk => hN k.1 (List.of_mem_zip hk).1
  generalize edges.zip current = l at hz
  clear h1 h2 hl hN
  induction l with
  | nil => simp
  | cons k l ih =>
    have := ih fun k' hk' => hz k' (List.mem_cons_of_mem _ hk')
    obtain ⟨h3, h4⟩ := hz k (by simp)
    simp only [List.map_cons, List.sum_cons, mul_add, add_mul, Finset.sum_add_distrib, ← this]
    congr 1
    simp only [sub_mul, mul_sub, Finset.sum_sub_distrib, mul_ite, ite_mul, mul_zero, zero_mul, Finset.sum_ite_eq, Finset.mem_range, h3, h4, if_true]
    ring

/-- C147.  Where every site conserves the current, the divergence of the convoluted current is zero everywhere. -/
theorem smoothCurrent_conserved (width : ℝ) (pos : ℕ → Fin d → ℝ) (N : ℕ) (edges : List (ℕ × ℕ)) (hN : ∀ k ∈ edges, k.1 < N ∧ k.2 < N) (current : List ℝ) (h0 : ∀ s < N, outflow edges current s = 0)
    (x : Fin d → ℝ) : divergence (smoothCurrent width pos edges current) x = 0 := by
  rw [(smoothCurrent_divergence width pos N edges hN current x).2]
  refine List.sum_eq_zero ?_
  intro y hy
  obtain ⟨k, hk, rfl⟩ := List.mem_map.mp hy
  rw [zip_range] at hk
  obtain ⟨s, hs, rfl⟩ := List.mem_map.mp hk
  simp only [h0 s (List.mem_range.mp hs), zero_mul]

/-- A current of 1 around a triangle is conserved. -/
example : ∀ s < 3, outflow [(0, 1), (1, 0), (1, 2), (2, 1), (2, 0), (0, 2)] [1, -1, 1, -1, 1, -1] s = 0 := by
  intro s hs
  interval_cases s <;> norm_num [outflow]

end Kwant.Plot
