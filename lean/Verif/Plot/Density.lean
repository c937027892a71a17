import Verif.Plot.Thm

/-! C146: `interpolate_density`. -/

set_option linter.unusedSectionVars false

namespace Kwant.Plot

variable {d : ℕ}

theorem interpolateDensity_unfold {N : ℕ} {pos : ℕ → Fin d → ℝ} {edges : List (ℕ × ℕ)} {density : List ℝ} {relwidth abswidth : Option ℝ} {n : ℕ} {f : Field d 1} {g : Grid d}
    (h : interpolateDensity N pos edges density relwidth abswidth n = .ok (f, g)) : density.length = N ∧ N ≠ 0 ∧ g = densityGrid ((List.range N).map pos) pos edges abswidth relwidth n ∧
      ∃ a, crossSections[d - 1]? = some a ∧ f = fun idx c => (((List.range N).zip density).map fun s => (⟨pos s.1, pos s.1, s.2⟩ : Elem d)).foldl (addElem g (fun _ => densityKernel)) (fun _ _ => 0) idx c * (g.scale / a) := by
  simp only [interpolateDensity] at h
  split at h
  · cases h
  · rename_i h1
    split at h
    · cases h
    · rename_i h2
      rw [interpolateField] at h
      cases ha : crossSections[d - 1]? with
      | none => rw [ha] at h; simp [Except.map] at h
      | some a =>
        rw [ha] at h
        simp only [Option.elim, Except.map, Except.ok.injEq, Prod.mk.injEq] at h
        obtain ⟨rfl, rfl⟩ := h
        exact ⟨not_not.mp h1, h2, rfl, a, rfl, rfl⟩

theorem densityGrid_facts {N : ℕ} {pos : ℕ → Fin d → ℝ} {edges : List (ℕ × ℕ)} {density : List ℝ} {relwidth abswidth : Option ℝ} {n : ℕ} (hn : 1 ≤ n) {f : Field d 1} {g : Grid d}
    (h : interpolateDensity N pos edges density relwidth abswidth n = .ok (f, g)) (hw : 0 < g.width) :
    g.Ok ∧ (∀ e, g.shape e % 2 = 0) ∧ ∀ i < N, ∀ e, g.lo e ≤ pos i e ∧ pos i e ≤ g.hi e := by
  obtain ⟨-, hN, rfl, -⟩ := interpolateDensity_unfold h
  have hbox : ∀ i < N, ∀ e, (densityGrid ((List.range N).map pos) pos edges abswidth relwidth n).lo e ≤ pos i e ∧ pos i e ≤ (densityGrid ((List.range N).map pos) pos edges abswidth relwidth n).hi e := by
    intro i hi e
    have hm : pos i e ∈ ((List.range N).map pos).map fun s => s e := by
      simp only [List.mem_map, List.mem_range, exists_exists_and_eq_and]; exact ⟨i, hi, rfl⟩
    exact ⟨lmin_le hm, le_lmax hm⟩
  have hle := fun e => (hbox 0 (by omega) e).1.trans (hbox 0 (by omega) e).2
  refine ⟨⟨hw, hle, fun e => shapeOf_pos (by have := hle e; simp only [densityGrid, gridOf] at this; linarith) hw hn⟩, fun e => shapeOf_even _ _ _, hbox⟩

/-- C146.  The field of `interpolate_density` is, at every point of the grid, the discrete density convoluted with the bump, up to one factor. -/
theorem interpolateDensity_value {N : ℕ} {pos : ℕ → Fin d → ℝ} {edges : List (ℕ × ℕ)} {density : List ℝ} {relwidth abswidth : Option ℝ} {n : ℕ} (hn : 1 ≤ n) {f : Field d 1} {g : Grid d}
    (h : interpolateDensity N pos edges density relwidth abswidth n = .ok (f, g)) (hw : 0 < g.width) :
    ∃ a, crossSections[d - 1]? = some a ∧ ∀ idx c, f idx c = (2 / g.width) / a * smoothDensity g.width pos N density (g.point idx) := by
  obtain ⟨hok, -, -⟩ := densityGrid_facts hn h hw
  obtain ⟨hl, hN, hg, a, ha, rfl⟩ := interpolateDensity_unfold h
  refine ⟨a, ha, fun idx c => ?_⟩
  have hker : ∀ (p : Fin d → ℝ) idx c, densityKernel (fun e => (g.point idx e - p e) * g.scale) c = bumpAt g.width fun e => g.point idx e - p e := fun p idx c => densityKernel_eq g.width _ p c
  beta_reduce
  rw [foldl_addElem hok _ ?_ (fun _ _ => 0) idx c, zero_add]
  · have e1 : (((List.range N).zip density).map fun s => (⟨pos s.1, pos s.1, s.2⟩ : Elem d)).map (fun el => densityKernel (fun e => (g.point idx e - el.p0 e) * g.scale) c * el.val) =
        ((List.range N).zip density).map fun k => k.2 * bumpAt g.width fun e => g.point idx e - pos k.1 e := by
      rw [List.map_map]
      refine List.map_congr_left fun k _ => ?_
      simp only [Function.comp_def, hker]
      ring
    rw [e1, smoothDensity, Grid.scale]
    ring
  · intro el hel idx e c hfar
    obtain ⟨s, -, rfl⟩ := List.mem_map.mp hel
    simp only [min_self, max_self] at hfar
    rw [hker, bumpAt_far hw e]
    rcases hfar with h | h
    · rw [abs_sub_comm]; exact le_trans (by linarith) (le_abs_self _)
    · exact le_trans (by linarith) (le_abs_self _)

theorem smoothDensity_zero {width : ℝ} {pos : ℕ → Fin d → ℝ} {N : ℕ} {density : List ℝ} {x : Fin d → ℝ} (h : ∀ i < N, bumpAt width (fun e => x e - pos i e) = 0) : smoothDensity width pos N density x = 0 := by
  refine List.sum_eq_zero ?_
  intro y hy
  obtain ⟨k, hk, rfl⟩ := List.mem_map.mp hy
  rw [h k.1 (List.mem_range.mp (List.of_mem_zip hk).1), mul_zero]

/-- C146.  The field is zero at the border of the grid. -/
theorem interpolateDensity_border {N : ℕ} {pos : ℕ → Fin d → ℝ} {edges : List (ℕ × ℕ)} {density : List ℝ} {relwidth abswidth : Option ℝ} {n : ℕ} (hn : 1 ≤ n) {f : Field d 1} {g : Grid d}
    (h : interpolateDensity N pos edges density relwidth abswidth n = .ok (f, g)) (hw : 0 < g.width) {idx : Fin d → ℕ} {e : Fin d} (hb : idx e = 0 ∨ idx e = g.shape e - 1) (c : Fin 1) : f idx c = 0 := by
  obtain ⟨hok, -, hbox⟩ := densityGrid_facts hn h hw
  obtain ⟨a, -, hv⟩ := interpolateDensity_value hn h hw
  rw [hv, smoothDensity_zero, mul_zero]
  intro i hi
  obtain ⟨h1, h2⟩ := hbox i hi e
  refine bumpAt_far hw e ?_
  rcases hb with hb | hb
  · rw [(hok.ends idx e).1 hb, abs_sub_comm]; exact le_trans (by linarith) (le_abs_self _)
  · rw [(hok.ends idx e).2 hb]; exact le_trans (by linarith) (le_abs_self _)

theorem bumpAt_beyond {width : ℝ} (hw : 0 < width) {x : Fin d → ℝ} (h : width / 2 ≤ Real.sqrt (sumSq x)) : bumpAt width x = 0 := by
  rw [bumpAt_eq]
  refine phi_zero ?_
  have h2 : (width / 2) ^ 2 ≤ sumSq x := by rw [← Real.sq_sqrt (sumSq_nonneg x)]; exact pow_le_pow_left₀ (by positivity) h 2
  have h3 : (2 / width) ^ 2 * (width / 2) ^ 2 = 1 := by field_simp
  have h4 : 0 ≤ (2 / width) ^ 2 := sq_nonneg _
  nlinarith

/-- C146.  The mask only hides points where the density is zero. -/
theorem masked_zero {N : ℕ} {pos : ℕ → Fin d → ℝ} {edges : List (ℕ × ℕ)} {density : List ℝ} {relwidth abswidth : Option ℝ} {n : ℕ} (hn : 1 ≤ n) {f : Field d 1} {g : Grid d}
    (h : interpolateDensity N pos edges density relwidth abswidth n = .ok (f, g)) (hw : 0 < g.width) {idx : Fin d → ℕ} (hm : masked N pos g idx) (c : Fin 1) : f idx c = 0 := by
  obtain ⟨a, -, hv⟩ := interpolateDensity_value hn h hw
  rw [hv, smoothDensity_zero, mul_zero]
  intro i hi
  exact bumpAt_beyond hw (by have := not_lt.mp (hm i hi); linarith)

/-- C146.  `interpolate_density` succeeds in one, two or three dimensions, if there is one density for every site and there are sites at all. -/
theorem interpolateDensity_succeeds {N : ℕ} (hN : N ≠ 0) (pos : ℕ → Fin d → ℝ) (edges : List (ℕ × ℕ)) {density : List ℝ} (hl : density.length = N) (hd : 1 ≤ d) (hd3 : d ≤ 3) (relwidth abswidth : Option ℝ) (n : ℕ) :
    ∃ f g, interpolateDensity N pos edges density relwidth abswidth n = .ok (f, g) := by
  have h4 : ∃ a, crossSections[d - 1]? = some a := by
    rw [← Option.isSome_iff_exists]
    simp [crossSections]
    omega
  obtain ⟨a, ha⟩ := h4
  simp only [interpolateDensity, hl, ne_eq, not_true_eq_false, if_false, hN, interpolateField, ha, Option.elim, Except.map]
  exact ⟨_, _, rfl⟩

/-! ### The width -/

theorem firstLong_spec {longest : ℝ} (l : List ℝ) (hs : l.Pairwise (· ≤ ·)) (hx : ∃ x ∈ l, x / longest > 1 / 1000) :
    firstLong longest l ∈ l ∧ firstLong longest l / longest > 1 / 1000 ∧ ∀ y ∈ l, y / longest > 1 / 1000 → firstLong longest l ≤ y := by
  induction l with
  | nil => simp at hx
  | cons x l ih =>
    rw [List.pairwise_cons] at hs
    simp only [firstLong]
    split
    · rename_i h
      refine ⟨by simp, h, fun y hy _ => ?_⟩
      rcases List.mem_cons.mp hy with rfl | hy
      · exact le_refl _
      · exact hs.1 y hy
    · rename_i h
      obtain ⟨h1, h2, h3⟩ := ih hs.2 (by
        obtain ⟨y, hy, hy'⟩ := hx
        rcases List.mem_cons.mp hy with rfl | hy
        · exact absurd hy' h
        · exact ⟨y, hy, hy'⟩)
      refine ⟨List.mem_cons_of_mem _ h1, h2, fun y hy hy' => ?_⟩
      rcases List.mem_cons.mp hy with rfl | hy
      · exact absurd hy' h
      · exact h3 y hy hy'

open Classical in
theorem mem_unique (l : List ℝ) (x : ℝ) : x ∈ unique l ↔ x ∈ l := by
  rw [unique, List.mem_dedup, List.mem_mergeSort]

open Classical in
theorem unique_sorted (l : List ℝ) : (unique l).Pairwise (· ≤ ·) := by
  have := List.pairwise_mergeSort (le := fun a b : ℝ => decide (a ≤ b)) (fun a b c => by simpa using le_trans) (fun a b => by simpa using le_total a b) l
  rw [unique]
  exact (this.imp (by simp)).sublist (List.dedup_sublist _)

/-- C145, C146.  Without widths, the width is four times the shortest hopping that is longer than a thousandth of the longest one; an absolute width takes precedence over a relative one. -/
theorem optimalWidth_default {lens : List ℝ} {longest : ℝ} (hl : longest ∈ lens) (hpos : 0 < longest) (hmax : ∀ x ∈ lens, x ≤ longest) (size : List ℝ) :
    (∃ s ∈ lens, optimalWidth lens none none size = 4 * s ∧ longest / 1000 < s ∧ ∀ y ∈ lens, longest / 1000 < y → s ≤ y) ∧
    (∀ w r, optimalWidth lens (some w) r size = w) ∧ ∀ r, optimalWidth lens none (some r) size = r * lmax size := by
  have hm : lmax (unique lens) = longest := by
    refine le_antisymm ?_ (le_lmax ((mem_unique lens _).mpr hl))
    have : ∀ (l : List ℝ), l ≠ [] → lmax l ∈ l := by
      intro l hne
      cases l with
      | nil => exact absurd rfl hne
      | cons a l =>
        simp only [lmax]
        clear hne
        induction l generalizing a with
        | nil => simp
        | cons b l ih =>
          rw [List.foldl_cons]
          rcases max_choice a b with h | h <;> rw [h]
          · rcases List.mem_cons.mp (ih a) with h2 | h2
            · rw [h2]; simp
            · simp [h2]
          · exact List.mem_cons_of_mem _ (ih b)
    exact hmax _ ((mem_unique lens _).mp (this _ (by intro h; have := (mem_unique lens longest).mpr hl; rw [h] at this; simp at this)))
  refine ⟨?_, fun w r => rfl, fun r => rfl⟩
  obtain ⟨h1, h2, h3⟩ := firstLong_spec (longest := longest) (unique lens) (unique_sorted lens) ⟨longest, (mem_unique lens _).mpr hl, by rw [div_self hpos.ne']; norm_num⟩
  refine ⟨_, (mem_unique lens _).mp h1, by simp [optimalWidth, hm], ?_, fun y hy hy' => h3 y ((mem_unique lens _).mpr hy) ?_⟩
  · rw [gt_iff_lt, lt_div_iff₀ hpos] at h2; linarith
  · rw [gt_iff_lt, lt_div_iff₀ hpos]; linarith

end Kwant.Plot
