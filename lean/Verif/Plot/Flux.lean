import Verif.Plot.Norm

/-! C148: the current through a plane. -/

set_option linter.unusedSectionVars false

namespace Kwant.Plot

open Set MeasureTheory

variable {n : ℕ}

/-- The flux of a vector field through the plane where coordinate `e` is `z`. -/
noncomputable def flux (F : (Fin (n + 1) → ℝ) → Fin (n + 1) → ℝ) (e : Fin (n + 1)) (z : ℝ) : ℝ := ∫ y : Fin n → ℝ, F (e.insertNth z y) e

open Classical in
/-- The current from the sites on the left to the sites on the right. -/
noncomputable def crossing (edges : List (ℕ × ℕ)) (current : List ℝ) (left : ℕ → Prop) : ℝ :=
  1 / 2 * ((edges.zip current).map fun k => if left k.1.2 ∧ ¬ left k.1.1 then k.2 else if ¬ left k.1.2 ∧ left k.1.1 then -k.2 else 0).sum

/-- The integral of the bump over a plane. -/
noncomputable def plane (width : ℝ) (e : Fin (n + 1)) (u : ℝ) : ℝ := ∫ y : Fin n → ℝ, bumpAt width (e.insertNth u y)

theorem plane_far {width : ℝ} (hw : 0 < width) (e : Fin (n + 1)) {u : ℝ} (h : width / 2 ≤ |u|) : plane width e u = 0 := by
  unfold plane
  rw [integral_congr_ae (g := fun _ => 0) (Filter.Eventually.of_forall fun y => bumpAt_far hw e (by simpa using h))]
  simp

theorem plane_integral {width : ℝ} (hw : 0 < width) (e : Fin (n + 1)) : ∫ u, plane width e u = ∫ x : Fin (n + 1) → ℝ, bumpAt width x := by
  have hmp := (volume_preserving_piFinSuccAbove (fun _ => ℝ) e).symm
  have hi : Integrable (fun p : ℝ × (Fin n → ℝ) => bumpAt width (e.insertNth p.1 p.2)) :=
    (hmp.integrable_comp_emb (MeasurableEquiv.measurableEmbedding _)).mpr (bumpAt_integrable hw)
  have h2 := hmp.integral_comp (MeasurableEquiv.measurableEmbedding _) (bumpAt width)
  rw [← h2]
  exact (integral_prod _ hi).symm

theorem shift_insertNth (e : Fin (n + 1)) (u : ℝ) (y : Fin n → ℝ) (p : Fin (n + 1) → ℝ) : (fun c => (e.insertNth u y : Fin (n + 1) → ℝ) c - p c) = e.insertNth (u - p e) (y - fun j => p (e.succAbove j)) := by
  funext c
  refine Fin.succAboveCases e ?_ (fun j => ?_) c <;> simp

/-- The flux of the current along one line. -/
theorem lineField_flux {width : ℝ} (hw : 0 < width) (p q : Fin (n + 1) → ℝ) (e : Fin (n + 1)) (z : ℝ) :
    Integrable (fun y : Fin n → ℝ => lineField width p q (e.insertNth z y) e) ∧ flux (lineField width p q) e z = ∫ u in (z - q e)..(z - p e), plane width e u := by
  -- The vectors on the line.
  set f : (Fin n → ℝ) → ℝ → ℝ := fun y t => bumpAt width (fun c => (e.insertNth z y : Fin (n + 1) → ℝ) c - (p c + t * (q c - p c))) * (q e - p e) with hf
  have hins : Continuous fun y : Fin n → ℝ => (e.insertNth z y : Fin (n + 1) → ℝ) := Continuous.finInsertNth e continuous_const continuous_id
  have hcont : Continuous (Function.uncurry f) := by
    refine Continuous.mul ((bumpAt_continuous width).comp (continuous_pi fun c => ?_)) continuous_const
    exact ((continuous_apply c).comp (hins.comp continuous_fst)).sub (by fun_prop)
  obtain ⟨R, hR⟩ : ∃ R, ∀ c, |p c| + |q c - p c| + width / 2 ≤ R := by
    refine ⟨∑ c, (|p c| + |q c - p c| + width / 2), fun c => Finset.single_le_sum (f := fun c => |p c| + |q c - p c| + width / 2) (fun c _ => by positivity) (Finset.mem_univ c)⟩
  have hzero : ∀ y t, t ∈ Ioc (0 : ℝ) 1 → y ∉ Icc (fun _ : Fin n => -R) (fun _ => R) → f y t = 0 := by
    intro y t ht hy
    obtain ⟨j, hj⟩ : ∃ j, y j < -R ∨ R < y j := by
      by_contra h
      push Not at h
      exact hy ⟨fun e => (h e).1, fun e => (h e).2⟩
    have h1 := hR (e.succAbove j)
    have h2 : |t * (q (e.succAbove j) - p (e.succAbove j))| ≤ |q (e.succAbove j) - p (e.succAbove j)| := by
      rw [abs_mul, abs_of_pos ht.1]
      exact mul_le_of_le_one_left (abs_nonneg _) ht.2
    have h3 := abs_add_le (p (e.succAbove j)) (t * (q (e.succAbove j) - p (e.succAbove j)))
    simp only [hf]
    rw [bumpAt_far hw (e.succAbove j), zero_mul]
    rw [Fin.insertNth_apply_succAbove]
    rcases hj with h | h
    · rw [abs_sub_comm]
      have := neg_abs_le (p (e.succAbove j) + t * (q (e.succAbove j) - p (e.succAbove j)))
      exact le_trans (by linarith) (le_abs_self _)
    · have := le_abs_self (p (e.succAbove j) + t * (q (e.succAbove j) - p (e.succAbove j)))
      exact le_trans (by linarith) (le_abs_self _)
  have hint : Integrable (Function.uncurry f) (volume.prod (volume.restrict (Ioc (0 : ℝ) 1))) := by
    have e1 : (volume : Measure (Fin n → ℝ)).prod (volume.restrict (Ioc (0 : ℝ) 1)) = ((volume : Measure (Fin n → ℝ)).prod volume).restrict (univ ×ˢ Ioc (0 : ℝ) 1) := by
      rw [← Measure.prod_restrict, Measure.restrict_univ]
    rw [e1]
    have hK : IntegrableOn (Function.uncurry f) (Icc (fun _ : Fin n => -R) (fun _ => R) ×ˢ Icc (0 : ℝ) 1) ((volume : Measure (Fin n → ℝ)).prod volume) :=
      hcont.continuousOn.integrableOn_compact (isCompact_Icc.prod isCompact_Icc)
    have hK2 : IntegrableOn (Function.uncurry f) (Icc (fun _ : Fin n => -R) (fun _ => R) ×ˢ Ioc (0 : ℝ) 1) ((volume : Measure (Fin n → ℝ)).prod volume) :=
      hK.mono_set (prod_mono le_rfl Ioc_subset_Icc_self)
    refine hK2.of_forall_diff_eq_zero (MeasurableSet.univ.prod measurableSet_Ioc) ?_
    rintro ⟨y, t⟩ ⟨h1, h2⟩
    exact hzero y t h1.2 fun h => h2 ⟨h, h1.2⟩
  have hl : ∀ y, lineField width p q (e.insertNth z y) e = ∫ t in Ioc (0 : ℝ) 1, f y t := fun y => by
    rw [lineField, intervalIntegral.integral_of_le zero_le_one]
  refine ⟨?_, ?_⟩
  · simp only [hl]
    exact hint.integral_prod_left
  · unfold flux
    simp only [hl]
    rw [integral_integral_swap hint]
    have h4 : ∀ t, ∫ y, f y t = (q e - p e) * plane width e ((z - p e) - (q e - p e) * t) := by
      intro t
      simp only [hf]
      rw [integral_mul_const, mul_comm, plane]
      congr 1
      refine Eq.trans ?_ (integral_sub_right_eq_self (μ := volume) (fun y : Fin n → ℝ => bumpAt width (e.insertNth (z - p e - (q e - p e) * t) y)) (fun j => p (e.succAbove j) + t * (q (e.succAbove j) - p (e.succAbove j))))
      refine integral_congr_ae (Filter.Eventually.of_forall fun y => ?_)
      simp only
      rw [shift_insertNth e z y (fun c => p c + t * (q c - p c))]
      congr 2
      ring
    simp only [h4]
    rw [← intervalIntegral.integral_of_le zero_le_one, intervalIntegral.integral_const_mul, intervalIntegral.mul_integral_comp_sub_mul]
    congr 1 <;> ring

theorem line_crossing {width : ℝ} (hw : 0 < width) (e : Fin (n + 1)) {a b z : ℝ} (ha : a ≤ z - width / 2 ∨ z + width / 2 ≤ a) (hb : b ≤ z - width / 2 ∨ z + width / 2 ≤ b) :
    ∫ u in (z - b)..(z - a), plane width e u = (if a < z ∧ ¬ b < z then 1 else if ¬ a < z ∧ b < z then -1 else 0) * ∫ x : Fin (n + 1) → ℝ, bumpAt width x := by
  have hsup : ∀ l r : ℝ, l ≤ -(width / 2) → width / 2 ≤ r → ∫ u in l..r, plane width e u = ∫ x : Fin (n + 1) → ℝ, bumpAt width x := by
    intro l r hl hr
    rw [intervalIntegral.integral_eq_integral_of_support_subset, plane_integral hw]
    intro u hu
    have : |u| < width / 2 := by
      by_contra h
      exact hu (plane_far hw e (not_lt.mp h))
    obtain ⟨h1, h2⟩ := abs_lt.mp this
    exact ⟨by linarith, by linarith⟩
  have hz : ∀ l r : ℝ, (∀ u ∈ uIcc l r, width / 2 ≤ |u|) → ∫ u in l..r, plane width e u = 0 := by
    intro l r h
    rw [intervalIntegral.integral_congr (g := fun _ => 0) fun u hu => plane_far hw e (h u hu)]
    simp
  rcases ha with ha | ha <;> rcases hb with hb | hb
  · rw [if_neg (by rintro ⟨-, h⟩; exact h (by linarith)), if_neg (by rintro ⟨h, -⟩; exact h (by linarith)), zero_mul]
    refine hz _ _ fun u hu => le_trans ?_ (le_abs_self u)
    have := hu.1
    exact le_trans (le_min (by linarith) (by linarith)) this
  · rw [if_pos ⟨by linarith, by linarith⟩, one_mul, hsup _ _ (by linarith) (by linarith)]
  · rw [if_neg (by rintro ⟨h, -⟩; linarith), if_pos ⟨by linarith, by linarith⟩, intervalIntegral.integral_symm, hsup _ _ (by linarith) (by linarith)]
    ring
  · rw [if_neg (by rintro ⟨h, -⟩; linarith), if_neg (by rintro ⟨-, h⟩; linarith), zero_mul]
    refine hz _ _ fun u hu => le_trans ?_ (neg_le_abs u)
    have := hu.2
    have := le_trans this (max_le (c := -(width / 2)) (by linarith) (by linarith))
    linarith

open Classical in
/-- C148.  The flux of the interpolated current (the function that is sampled on the grid, see `interpolateCurrent_value`) through a plane that is at least half a width away from all sites
is the current of the hoppings that cross the plane in two dimensions only: in `d` dimensions, `d = n + 1`, it is too large by the power `d - 2` of half the width of the bumps. -/
theorem current_flux_partial {width : ℝ} (hw : 0 < width) {a : ℝ} (ha : crossSections[n]? = some a) (pos : ℕ → Fin (n + 1) → ℝ) {edges : List (ℕ × ℕ)} {current : List ℝ} (e : Fin (n + 1)) (z : ℝ)
    (hfar : ∀ k ∈ edges, (pos k.1 e ≤ z - width / 2 ∨ z + width / 2 ≤ pos k.1 e) ∧ (pos k.2 e ≤ z - width / 2 ∨ z + width / 2 ≤ pos k.2 e)) :
    flux (fun x c => (2 / width) ^ 2 / a * smoothCurrent width pos edges current x c) e z = (width / 2) ^ ((n : ℤ) - 1) * crossing edges current (fun s => pos s e < z) := by
  have ha0 : a ≠ 0 := by
    have hm := List.mem_of_getElem? ha
    have hpi := Real.pi_pos
    simp only [crossSections, List.mem_cons, List.not_mem_nil, or_false] at hm
    rcases hm with rfl | rfl | rfl <;> positivity
  have hA : ∫ x : Fin (n + 1) → ℝ, bumpAt width x = a * (width / 2) ^ (n + 1) := bump_integral hw (by omega) (by simpa using ha)
  have hz : ∀ k ∈ edges.zip current, (pos k.1.1 e ≤ z - width / 2 ∨ z + width / 2 ≤ pos k.1.1 e) ∧ (pos k.1.2 e ≤ z - width / 2 ∨ z + width / 2 ≤ pos k.1.2 e) := fun k hk => hfar k.1 (List.of_mem_zip hk).1
  have key : ∀ l : List ((ℕ × ℕ) × ℝ), (∀ k ∈ l, (pos k.1.1 e ≤ z - width / 2 ∨ z + width / 2 ≤ pos k.1.1 e) ∧ (pos k.1.2 e ≤ z - width / 2 ∨ z + width / 2 ≤ pos k.1.2 e)) →
      Integrable (fun y : Fin n → ℝ => (l.map fun k => k.2 * lineField width (pos k.1.2) (pos k.1.1) (e.insertNth z y) e).sum) ∧
      ∫ y : Fin n → ℝ, (l.map fun k => k.2 * lineField width (pos k.1.2) (pos k.1.1) (e.insertNth z y) e).sum =
        (l.map fun k => if pos k.1.2 e < z ∧ ¬ pos k.1.1 e < z then k.2 else if ¬ pos k.1.2 e < z ∧ pos k.1.1 e < z then -k.2 else 0).sum * (a * (width / 2) ^ (n + 1)) := by
    intro l
    induction l with
    | nil => intro _; simp
    | cons k l ih =>
      intro h
      have ih := ih fun k' hk' => h k' (List.mem_cons_of_mem _ hk')
      obtain ⟨h1, h2⟩ := lineField_flux hw (pos k.1.2) (pos k.1.1) e z
      obtain ⟨h3, h4⟩ := h k (by simp)
      simp only [List.map_cons, List.sum_cons]
      refine ⟨(h1.const_mul _).add ih.1, ?_⟩
      rw [integral_add (h1.const_mul _) ih.1, integral_const_mul, ih.2]
      unfold flux at h2
      rw [h2, line_crossing hw e h4 h3, hA, add_mul]
      congr 1
      split_ifs <;> ring
  unfold flux
  simp only [smoothCurrent]
  rw [integral_const_mul, integral_const_mul, (key _ hz).2, crossing]
  rw [show ((n : ℤ) - 1) = ((n + 1 : ℕ) : ℤ) - 2 by push_cast; ring, zpow_sub₀ (by positivity), zpow_natCast]
  norm_cast
  field_simp

/-- In two dimensions there is no factor. -/
theorem current_flux_2d {width : ℝ} (hw : 0 < width) (pos : ℕ → Fin 2 → ℝ) {edges : List (ℕ × ℕ)} {current : List ℝ} (e : Fin 2) (z : ℝ)
    (hfar : ∀ k ∈ edges, (pos k.1 e ≤ z - width / 2 ∨ z + width / 2 ≤ pos k.1 e) ∧ (pos k.2 e ≤ z - width / 2 ∨ z + width / 2 ≤ pos k.2 e)) :
    flux (fun x c => (2 / width) ^ 2 / (Real.pi / 3) * smoothCurrent width pos edges current x c) e z = crossing edges current (fun s => pos s e < z) := by
  rw [current_flux_partial (n := 1) hw rfl pos e z hfar]
  simp

end Kwant.Plot
