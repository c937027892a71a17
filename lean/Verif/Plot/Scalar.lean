import Verif.Plot.Stream
/-!
C205: `scalarplot` with plotly (kwant/plotter.py l.2751-2798): which values are drawn where, and the range of colours.

Contract (plotly): a `Heatmap` draws the element `z[j][i]` at `(x[i], y[j])`.  A place is `none` if the array of coordinates has no such element.
-/

namespace Kwant.ScalarPlot

open Kwant.Stream

/-! ## Model -/

/-- A two-dimensional array: its shape and its elements. -/
structure Arr where
  shape : ℕ × ℕ
  val : ℕ → ℕ → ℝ

/-- `field.squeeze(axis=-1).transpose()` (l.2751) for a field of shape `(nx, ny, 1)` -/
def transposed (field : Arr) : Arr := ⟨(field.shape.2, field.shape.1), fun j i => field.val i j⟩

/-- All elements. -/
def Arr.all (a : Arr) : List ℝ := (List.range a.shape.1).flatMap fun i => (List.range a.shape.2).map fun j => a.val i j

/-- `vmin` and `vmax` (l.2756-2759): `np.min` and `np.max` of the field, unless given; an empty field raises `ValueError`. -/
noncomputable def limits (field : Arr) (vmin vmax : Option ℝ) : Except String (ℝ × ℝ) :=
  let lo := match vmin with
    | some v => some v
    | none => (transposed field).all.min?
  let hi := match vmax with
    | some v => some v
    | none => (transposed field).all.max?
  match lo, hi with
  | some a, some b => .ok (a, b)
  | _, _ => .error "ValueError"

/-- Element `i` of `np.linspace(a, b, n)` if there is one. -/
noncomputable def coordinate (a b : ℝ) (n i : ℕ) : Option ℝ := if i < n then some (linspace a b n i) else none

/-- Where `_scalarplot_plotly` (l.2778-2790) draws `z[j][i]`, and this element: `x` has `field.shape[0]` elements and `y` has `field.shape[1]`, where `field` is transposed already. -/
noncomputable def drawn (box : Box) (field : Arr) (j i : ℕ) : (Option ℝ × Option ℝ) × ℝ :=
  let z := transposed field
  ((coordinate box.x0 box.x1 z.shape.1 i, coordinate box.y0 box.y1 z.shape.2 j), z.val j i)

/-! ## Specification -/

/-- The sample point `i` of `n` between `a` and `b`: `n` equidistant points, the ends included. -/
noncomputable def sample (a b : ℝ) (n i : ℕ) : ℝ := a + (b - a) * (i / ((n : ℝ) - 1))

/-- The values of the field. -/
def Value (field : Arr) (v : ℝ) : Prop := ∃ i < field.shape.1, ∃ j < field.shape.2, field.val i j = v

/-! ## Proofs -/

theorem mem_all (field : Arr) (v : ℝ) : v ∈ (transposed field).all ↔ Value field v := by
  unfold Arr.all transposed Value
  simp only [List.mem_flatMap, List.mem_range, List.mem_map]
  constructor
  · rintro ⟨j, hj, i, hi, h⟩
    exact ⟨i, hi, j, hj, h⟩
  · rintro ⟨i, hi, j, hj, h⟩
    exact ⟨j, hj, i, hi, h⟩

/-- **C205 (range of colours).** Unless limits are given, the range is exactly the range of the values: no value is outside of it, and both ends are values. -/
theorem C205_limits (field : Arr) (vmin vmax : Option ℝ) :
    ((∃ v, Value field v) → ∃ a b, limits field vmin vmax = .ok (a, b) ∧ (∀ v, vmin = some v → a = v) ∧ (∀ v, vmax = some v → b = v) ∧
      (vmin = none → Value field a ∧ ∀ v, Value field v → a ≤ v) ∧ (vmax = none → Value field b ∧ ∀ v, Value field v → v ≤ b)) ∧
    ((¬ ∃ v, Value field v) → (vmin = none ∨ vmax = none) → limits field vmin vmax = .error "ValueError") := by
  constructor
  · rintro ⟨v0, h0⟩
    have hne : (transposed field).all ≠ [] := by
      intro h
      have := (mem_all field v0).mpr h0
      rw [h] at this
      simp at this
    obtain ⟨lo, hlo⟩ : ∃ lo, (transposed field).all.min? = some lo := Option.ne_none_iff_exists'.mp (by rw [Ne, List.min?_eq_none_iff]; exact hne)
    obtain ⟨hi, hhi⟩ : ∃ hi, (transposed field).all.max? = some hi := Option.ne_none_iff_exists'.mp (by rw [Ne, List.max?_eq_none_iff]; exact hne)
    obtain ⟨l1, l2⟩ := List.min?_eq_some_iff.mp hlo
    obtain ⟨m1, m2⟩ := List.max?_eq_some_iff.mp hhi
    have L : Value field lo ∧ ∀ v, Value field v → lo ≤ v := ⟨(mem_all field lo).mp l1, fun v hv => l2 v ((mem_all field v).mpr hv)⟩
    have M : Value field hi ∧ ∀ v, Value field v → v ≤ hi := ⟨(mem_all field hi).mp m1, fun v hv => m2 v ((mem_all field v).mpr hv)⟩
    unfold limits
    rw [hlo, hhi]
    rcases vmin with _ | a <;> rcases vmax with _ | b
    · exact ⟨lo, hi, rfl, by simp, by simp, fun _ => L, fun _ => M⟩
    · exact ⟨lo, b, rfl, by simp, by simp, fun _ => L, by simp⟩
    · exact ⟨a, hi, rfl, by simp, by simp, by simp, fun _ => M⟩
    · exact ⟨a, b, rfl, by simp, by simp, by simp, by simp⟩
  · intro hn hx
    have he : (transposed field).all = [] := by
      rw [List.eq_nil_iff_forall_not_mem]
      exact fun v hv => hn ⟨v, (mem_all field v).mp hv⟩
    unfold limits
    rw [he]
    rcases vmin with _ | a <;> rcases vmax with _ | b <;> first | rfl | (exfalso; simp at hx)

theorem coordinate_eq {a b : ℝ} {n i : ℕ} (hn : 2 ≤ n) (hi : i < n) : coordinate a b n i = some (sample a b n i) := by
  unfold coordinate linspace sample
  rw [if_pos hi, if_neg (by omega)]
  congr 1
  ring

/-- **C205 (positions), partial: for fields with as many points in x as in y.** Every value is drawn at its sample point. -/
theorem C205_positions_partial (box : Box) {n : ℕ} (hn : 2 ≤ n) (field : Arr) (hs : field.shape = (n, n)) {i j : ℕ} (hi : i < n) (hj : j < n) :
    drawn box field j i = ((some (sample box.x0 box.x1 n i), some (sample box.y0 box.y1 n j)), field.val i j) := by
  unfold drawn transposed
  simp only [hs]
  rw [coordinate_eq hn hi, coordinate_eq hn hj]

/-- For all other fields it is false: every point except for those at the lower left edges is drawn at the wrong place, or has no coordinate at all. -/
theorem C205_counterexample (box : Box) (hb : box.x0 < box.x1 ∧ box.y0 < box.y1) {nx ny : ℕ} (hx : 2 ≤ nx) (hy : 2 ≤ ny) (hne : nx ≠ ny) (field : Arr) (hs : field.shape = (nx, ny))
    {i j : ℕ} (hi : i < nx) (hj : j < ny) :
    (0 < i → (drawn box field j i).1.1 ≠ some (sample box.x0 box.x1 nx i)) ∧ (0 < j → (drawn box field j i).1.2 ≠ some (sample box.y0 box.y1 ny j)) := by
  have key : ∀ {a b : ℝ} {n m k : ℕ}, a < b → 2 ≤ n → 2 ≤ m → n ≠ m → 0 < k → coordinate a b m k ≠ some (sample a b n k) := by
    intro a b n m k hab hn hm hnm hk h
    by_cases hkm : k < m
    · rw [coordinate_eq hm hkm, Option.some.injEq] at h
      unfold sample at h
      have h1 : (b - a) * (k / ((m : ℝ) - 1)) = (b - a) * (k / ((n : ℝ) - 1)) := by linarith
      have h2 := mul_left_cancel₀ (ne_of_gt (sub_pos.mpr hab)) h1
      have hn' : ((n : ℝ) - 1) ≠ 0 := by
        have : (2 : ℝ) ≤ n := by exact_mod_cast hn
        linarith
      have hm' : ((m : ℝ) - 1) ≠ 0 := by
        have : (2 : ℝ) ≤ m := by exact_mod_cast hm
        linarith
      have hk' : (k : ℝ) ≠ 0 := by exact_mod_cast (by omega : k ≠ 0)
      rw [div_eq_div_iff hm' hn'] at h2
      have h3 := mul_left_cancel₀ hk' h2
      apply hnm
      have : (n : ℝ) = m := by linarith
      exact_mod_cast this
    · unfold coordinate at h
      rw [if_neg hkm] at h
      cases h
  unfold drawn transposed
  simp only [hs]
  exact ⟨fun h => key hb.1 hx hy hne h, fun h => key hb.2 hy hx (Ne.symm hne) h⟩

/-- The hypotheses of the theorems can be met: a field of two by two points; and a field of three by two points, where the last column has no coordinate. -/
theorem C205_example : drawn ⟨0, 1, 0, 2⟩ ⟨(2, 2), fun i j => i + 10 * j⟩ 1 0 = ((some 0, some 2), 10) ∧
    limits ⟨(2, 2), fun i j => i + 10 * j⟩ none (some 7) = .ok (0, 7) ∧ (drawn ⟨0, 1, 0, 2⟩ ⟨(3, 2), fun i j => i + 10 * j⟩ 0 2).1.1 = none := by
  refine ⟨?_, ?_, ?_⟩
  · rw [C205_positions_partial _ (le_refl 2) _ rfl (by norm_num) (by norm_num)]
    norm_num [sample]
  · obtain ⟨a, b, h, -, hb, hv, -⟩ := (C205_limits ⟨(2, 2), fun i j => i + 10 * j⟩ none (some 7)).1 ⟨_, 0, by decide, 0, by decide, rfl⟩
    rw [h]
    have hb' := hb 7 rfl
    obtain ⟨⟨i, hi, j, hj, e⟩, hle⟩ := hv rfl
    have h0 := hle 0 ⟨0, by decide, 0, by decide, by simp⟩
    simp only at e
    have : (0 : ℝ) ≤ a := by rw [← e]; positivity
    rw [hb', le_antisymm h0 this]
  · simp [drawn, transposed, coordinate]

end Kwant.ScalarPlot
