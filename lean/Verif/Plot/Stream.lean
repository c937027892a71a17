import Mathlib.Analysis.SpecialFunctions.Pow.Real
import Mathlib.Tactic.Linarith
import Mathlib.Tactic.NormNum
import Mathlib.Tactic.Positivity
import Mathlib.Tactic.FieldSimp
import Mathlib.Tactic.LinearCombination
import Mathlib.Data.List.MinMax

/-!
C202: the lines, colours and positions of `kwant.plotter.streamplot` (and of `kwant.plotter.current`): `_gamma_compress`, `_gamma_expand`, `_linear_cmap`, `_streamplot_matplotlib` (plotter.py
l.2508-2541, l.2634-2698), and the image of `scalarplot` (l.2814-2817).  Exact arithmetic.
-/

namespace Kwant.Stream

/-! ## Model -/

/-- `_gamma_compress` (l.2508-2514) -/
noncomputable def compress (l : ℝ) : ℝ :=
  if l ≤ 31308 / 10000000 then 1292 / 100 * l else (1 + 55 / 1000) * l ^ ((1 : ℝ) / (24 / 10)) - 55 / 1000

/-- `_gamma_expand` (l.2519-2525) -/
noncomputable def expand (c : ℝ) : ℝ :=
  if c ≤ 4045 / 100000 then c / (1292 / 100) else ((c + 55 / 1000) / (1 + 55 / 1000)) ^ ((24 : ℝ) / 10)

/-- One channel of entry `k` of the 256 entries of `_linear_cmap(a, b)` (l.2530-2541). -/
noncomputable def palette (a b : ℝ) (k : ℕ) : ℝ := compress ((k : ℝ) / 255 * (expand a - expand b) + expand b)

/-- `vmax` (l.2667-2668) for the speeds at all points. -/
noncomputable def vmaxOf (given : Option ℝ) (speeds : List ℝ) : ℝ :=
  match given with
  | some v => v
  | none =>
    match speeds.max? with
    | some m => if m = 0 then 1 else m
    | none => 1

/-- Width and colour (position in the palette, 0 to 1) of a line where the speed is `speed` (l.2679-2683). -/
noncomputable def lineStyle (maxLw minLw vmax speed : ℝ) : ℝ × ℝ :=
  let linewidth := maxLw / vmax * speed
  let color := linewidth / minLw
  if linewidth < minLw then (minLw, color) else (linewidth, 1)

/-- `np.linspace(a, b, n)[i]` -/
noncomputable def linspace (a b : ℝ) (n i : ℕ) : ℝ := if n = 1 then a else a + i * ((b - a) / (n - 1))

/-- A box: `((x0, x1), (y0, y1))` -/
structure Box where
  x0 : ℝ
  x1 : ℝ
  y0 : ℝ
  y1 : ℝ

/-- The points and vectors handed to matplotlib (l.2640, l.2663-2664, l.2687): the vector of row `j` and column `i` is shown at `(X[i], Y[j])`.  `field i j` has the shape `(nx, ny)` of the argument. -/
noncomputable def vectorAt (box : Box) (nx ny : ℕ) (field : ℕ → ℕ → ℝ × ℝ) (j i : ℕ) : (ℝ × ℝ) × (ℝ × ℝ) :=
  let shape := (ny, nx)
  let transposed := fun j i => field i j
  ((linspace box.x0 box.x1 shape.2 i, linspace box.y0 box.y1 shape.1 j), transposed j i)

/-- `imshow(image, extent=[x0, x1, y0, y1], origin='lower')` (l.2673-2676, l.2814-2817): the centre of the pixel of row `j` and column `i` of an image of `ny` rows and `nx` columns (matplotlib). -/
noncomputable def pixelAt (box : Box) (nx ny : ℕ) (j i : ℕ) : ℝ × ℝ :=
  (box.x0 + (i + 1 / 2) * ((box.x1 - box.x0) / nx), box.y0 + (j + 1 / 2) * ((box.y1 - box.y0) / ny))

/-! ## Specification -/

/-- Colour values for which the two branches of the functions are not inverse to each other: an interval of length `7 * 10^-8` that contains no value `k / 255`. -/
def Gap (c : ℝ) : Prop := 40449936 / 1000000000 < c ∧ c ≤ 4045 / 100000

/-- The same for linear light. -/
def LinearGap (l : ℝ) : Prop := 31308 / 10000000 < l ∧ l ≤ ((4045 / 100000 + 55 / 1000) / (1 + 55 / 1000)) ^ ((24 : ℝ) / 10)

/-! ## Proofs -/

/-- **C202 (lines).** Nowhere is a line thinner than `min_linewidth`, and width times intensity is proportional to the speed, up to `max_linewidth` for `vmax`: where a line would be too thin, its intensity
is reduced instead, so that it looks as if it was that thin. -/
theorem C202_lines {maxLw minLw vmax speed : ℝ} (h0 : 0 ≤ maxLw) (h1 : 0 < minLw) (hv : 0 < vmax) (hs : 0 ≤ speed) :
    minLw ≤ (lineStyle maxLw minLw vmax speed).1 ∧ 0 ≤ (lineStyle maxLw minLw vmax speed).2 ∧ (lineStyle maxLw minLw vmax speed).2 ≤ 1 ∧
      (lineStyle maxLw minLw vmax speed).1 * (lineStyle maxLw minLw vmax speed).2 = maxLw * (speed / vmax) ∧
      ((lineStyle maxLw minLw vmax speed).2 < 1 → (lineStyle maxLw minLw vmax speed).1 = minLw) ∧
      (minLw ≤ maxLw * (speed / vmax) → (lineStyle maxLw minLw vmax speed) = (maxLw * (speed / vmax), 1)) := by
  have e : maxLw / vmax * speed = maxLw * (speed / vmax) := by ring
  have hn : 0 ≤ maxLw * (speed / vmax) := by positivity
  unfold lineStyle
  simp only [e]
  split
  · rename_i h
    refine ⟨le_refl _, by positivity, (div_le_one h1).mpr h.le, by field_simp, fun _ => rfl, fun hc => by linarith⟩
  · rename_i h
    push Not at h
    exact ⟨h, zero_le_one, le_refl _, mul_one _, fun hc => absurd hc (lt_irrefl _), fun _ => rfl⟩

/-- The speed is at most `vmax` if it is not given, so that no line is thicker than `max_linewidth` (if this is not less than `min_linewidth`). -/
theorem C202_thickest {maxLw minLw : ℝ} (h0 : 0 ≤ maxLw) (hm : minLw ≤ maxLw) {speeds : List ℝ} (hs : ∀ s ∈ speeds, 0 ≤ s) :
    ∀ s ∈ speeds, (lineStyle maxLw minLw (vmaxOf none speeds) s).1 ≤ maxLw ∧ 0 < vmaxOf none speeds := by
  intro s hmem
  have hle : 0 < vmaxOf none speeds ∧ s ≤ vmaxOf none speeds := by
    unfold vmaxOf
    simp only
    rcases hx : speeds.max? with _ | m
    · rw [List.max?_eq_none_iff] at hx
      subst hx
      simp at hmem
    · obtain ⟨m1, m2⟩ := List.max?_eq_some_iff.mp hx
      have hsm := m2 s hmem
      have hm0 := hs m m1
      simp only
      split
      · rename_i hz
        exact ⟨one_pos, by linarith⟩
      · rename_i hz
        exact ⟨lt_of_le_of_ne hm0 (Ne.symm hz), hsm⟩
  refine ⟨?_, hle.1⟩
  unfold lineStyle
  simp only
  split
  · exact hm
  · rw [div_mul_eq_mul_div, div_le_iff₀ hle.1]
    exact mul_le_mul_of_nonneg_left hle.2 h0

theorem threshold : (31308 : ℝ) / 10000000 < ((4045 / 100000 + 55 / 1000) / (1 + 55 / 1000)) ^ ((24 : ℝ) / 10) := by
  have h : ((31308 : ℝ) / 10000000) ^ (5 : ℕ) < ((4045 / 100000 + 55 / 1000) / (1 + 55 / 1000)) ^ (12 : ℕ) := by norm_num
  have e : (((4045 : ℝ) / 100000 + 55 / 1000) / (1 + 55 / 1000)) ^ (12 : ℕ) = ((((4045 : ℝ) / 100000 + 55 / 1000) / (1 + 55 / 1000)) ^ ((24 : ℝ) / 10)) ^ (5 : ℕ) := by
    rw [← Real.rpow_natCast, ← Real.rpow_natCast, ← Real.rpow_mul (by norm_num)]
    norm_num
  rw [e] at h
  exact lt_of_pow_lt_pow_left₀ 5 (by positivity) h

/-- Colours are recovered exactly. -/
theorem compress_expand {c : ℝ} (hg : ¬ Gap c) : compress (expand c) = c := by
  unfold expand
  split
  · rename_i h
    have h1 : c ≤ 40449936 / 1000000000 := by
      by_contra hc
      push Not at hc
      exact hg ⟨hc, h⟩
    unfold compress
    rw [if_pos (by rw [div_le_iff₀ (by norm_num)]; linarith)]
    field_simp
  · rename_i h
    push Not at h
    have hb : 0 < (c + 55 / 1000) / (1 + 55 / 1000) := by
      have : 0 < c := by linarith
      positivity
    have hlt : ((4045 / 100000 + 55 / 1000) / (1 + 55 / 1000) : ℝ) < (c + 55 / 1000) / (1 + 55 / 1000) := by
      apply div_lt_div_of_pos_right _ (by norm_num)
      linarith
    have h2 : (31308 : ℝ) / 10000000 < ((c + 55 / 1000) / (1 + 55 / 1000)) ^ ((24 : ℝ) / 10) :=
      threshold.trans (Real.rpow_lt_rpow (by norm_num) hlt (by norm_num))
    unfold compress
    rw [if_neg (by linarith), ← Real.rpow_mul hb.le]
    norm_num
    ring

/-- Linear light is recovered exactly. -/
theorem expand_compress {l : ℝ} (hg : ¬ LinearGap l) : expand (compress l) = l := by
  unfold compress
  split
  · rename_i h
    unfold expand
    rw [if_pos (by linarith)]
    field_simp
  · rename_i h
    push Not at h
    have hl : 0 < l := by linarith
    have h1 : ((4045 / 100000 + 55 / 1000) / (1 + 55 / 1000)) ^ ((24 : ℝ) / 10) < l := by
      by_contra hc
      push Not at hc
      exact hg ⟨h, hc⟩
    have h2 : ((4045 / 100000 + 55 / 1000) / (1 + 55 / 1000) : ℝ) < l ^ ((1 : ℝ) / (24 / 10)) := by
      have := Real.rpow_lt_rpow (by positivity) h1 (show (0 : ℝ) < 1 / (24 / 10) by norm_num)
      rwa [← Real.rpow_mul (by norm_num), show ((24 : ℝ) / 10) * (1 / (24 / 10)) = 1 by norm_num, Real.rpow_one] at this
    have h3 : ¬ ((1 + 55 / 1000) * l ^ ((1 : ℝ) / (24 / 10)) - 55 / 1000 ≤ 4045 / 100000) := by
      rw [div_lt_iff₀ (by norm_num)] at h2
      push Not
      linarith
    unfold expand
    rw [if_neg h3, show ((1 + 55 / 1000) * l ^ ((1 : ℝ) / (24 / 10)) - 55 / 1000 + 55 / 1000) / (1 + 55 / 1000) = l ^ ((1 : ℝ) / (24 / 10)) by field_simp; ring,
      ← Real.rpow_mul hl.le]
    norm_num

/-- No 8-bit colour is in the gap. -/
theorem not_gap_byte (k : ℕ) : ¬ Gap ((k : ℝ) / 255) := by
  rintro ⟨h1, h2⟩
  rw [div_le_iff₀ (by norm_num)] at h2
  rw [lt_div_iff₀ (by norm_num)] at h1
  have a : k ≤ 10 := by
    by_contra hc
    push Not at hc
    have : (11 : ℝ) ≤ k := by exact_mod_cast hc
    linarith
  have b : 11 ≤ k := by
    by_contra hc
    push Not at hc
    have : (k : ℝ) ≤ 10 := by exact_mod_cast (by omega : k ≤ 10)
    linarith
  omega

/-- **C202 (ends of the palette).** The thinnest lines have the colour of the background, and lines that are not too thin have exactly the colour of lines. -/
theorem C202_ends {a b : ℝ} (ha : ¬ Gap a) (hb : ¬ Gap b) : palette a b 0 = b ∧ palette a b 255 = a := by
  unfold palette
  constructor
  · rw [Nat.cast_zero, zero_div, zero_mul, zero_add, compress_expand hb]
  · rw [show ((255 : ℕ) : ℝ) / 255 * (expand a - expand b) + expand b = expand a by norm_num, compress_expand ha]

/-- In particular for 8-bit colours. -/
theorem C202_ends_bytes (m n : ℕ) : palette (m / 255) (n / 255) 0 = n / 255 ∧ palette (m / 255) (n / 255) 255 = m / 255 :=
  C202_ends (not_gap_byte m) (not_gap_byte n)

/-- **C202 (blending).** The light of the entries of the palette changes linearly from the background to the lines, so that a line of width `w` and colour `k / 255` differs from the background by as much light
as a line of width `w * k / 255` in the full colour. -/
theorem C202_blending {a b : ℝ} (k : ℕ) (hg : ¬ LinearGap ((k : ℝ) / 255 * (expand a - expand b) + expand b)) (w : ℝ) :
    expand (palette a b k) = (1 - (k : ℝ) / 255) * expand b + (k : ℝ) / 255 * expand a ∧
      w * (expand (palette a b k) - expand b) = (w * ((k : ℝ) / 255)) * (expand a - expand b) := by
  unfold palette
  rw [expand_compress hg]
  constructor <;> ring

/-- **C202 (positions).** The vector `field[i, j]` is drawn at the sample point of the box to which it belongs. -/
theorem C202_positions (box : Box) {nx ny : ℕ} (hx : 2 ≤ nx) (hy : 2 ≤ ny) (field : ℕ → ℕ → ℝ × ℝ) (i j : ℕ) :
    vectorAt box nx ny field j i = ((box.x0 + (box.x1 - box.x0) * (i / (nx - 1)), box.y0 + (box.y1 - box.y0) * (j / (ny - 1))), field i j) := by
  unfold vectorAt linspace
  simp only
  rw [if_neg (by omega), if_neg (by omega)]
  refine Prod.ext (Prod.ext ?_ ?_) rfl <;> simp only <;> ring

theorem shift_le {x0 x1 : ℝ} (h : x0 ≤ x1) {n i : ℕ} (hn : 2 ≤ n) (hi : i < n) :
    |x0 + (i + 1 / 2) * ((x1 - x0) / n) - (x0 + (x1 - x0) * (i / (n - 1)))| ≤ (x1 - x0) / n / 2 := by
  have hn' : (2 : ℝ) ≤ n := by exact_mod_cast hn
  have hi' : (i : ℝ) + 1 ≤ n := by exact_mod_cast hi
  have h0 : (0 : ℝ) ≤ i := Nat.cast_nonneg i
  have hd : (0 : ℝ) < n - 1 := by linarith
  have e : x0 + (i + 1 / 2) * ((x1 - x0) / n) - (x0 + (x1 - x0) * (i / (n - 1))) = (x1 - x0) / n * (1 / 2 - i / (n - 1)) := by
    field_simp
    ring
  have hq : (0 : ℝ) ≤ i / (n - 1) ∧ (i : ℝ) / (n - 1) ≤ 1 := ⟨by positivity, by rw [div_le_one hd]; linarith⟩
  have hw : 0 ≤ (x1 - x0) / n := by apply div_nonneg <;> linarith
  have ha : |(1 : ℝ) / 2 - i / (n - 1)| ≤ 1 / 2 := by
    rw [abs_le]
    constructor <;> linarith [hq.1, hq.2]
  rw [e, abs_mul, abs_of_nonneg hw]
  linarith [mul_le_mul_of_nonneg_left ha hw]

/-- **C202 (image).** The pixels of the image behind the lines (and of `scalarplot`) are at most half a pixel away from the points whose values they show. -/
theorem C202_image (box : Box) (hb : box.x0 ≤ box.x1 ∧ box.y0 ≤ box.y1) {nx ny : ℕ} (hx : 2 ≤ nx) (hy : 2 ≤ ny) {i j : ℕ} (hi : i < nx) (hj : j < ny) (field : ℕ → ℕ → ℝ × ℝ) :
    |(pixelAt box nx ny j i).1 - (vectorAt box nx ny field j i).1.1| ≤ (box.x1 - box.x0) / nx / 2 ∧
      |(pixelAt box nx ny j i).2 - (vectorAt box nx ny field j i).1.2| ≤ (box.y1 - box.y0) / ny / 2 := by
  rw [C202_positions box hx hy]
  exact ⟨shift_le hb.1 hx hi, shift_le hb.2 hy hj⟩

/-- They are not at these points: the extent of the image is that of the points, although pixels have a size (`map` takes this into account, see C177). -/
theorem C202_counterexample_image (field : ℕ → ℕ → ℝ × ℝ) :
    (pixelAt ⟨0, 3, 0, 3⟩ 4 4 0 0).1 = 3 / 8 ∧ (vectorAt ⟨0, 3, 0, 3⟩ 4 4 field 0 0).1.1 = 0 ∧
      (pixelAt ⟨0, 3, 0, 3⟩ 4 4 0 3).1 = 21 / 8 ∧ (vectorAt ⟨0, 3, 0, 3⟩ 4 4 field 0 3).1.1 = 3 := by
  unfold pixelAt vectorAt linspace
  norm_num

/-! ## Background -/

/-- How the background is drawn. -/
inductive Background where
  | image (cmap : String)
  | failed (error : String)
deriving DecidableEq

/-- The arguments `cmap` and `bgcolor` (l.2645-2654, l.2670-2676).  With every version of matplotlib that kwant supports (3.2.2 or newer), `Axes.set_axis_bgcolor` does not exist any more. -/
def background (cmap bgcolor : Option String) : Background :=
  match bgcolor, cmap with
  | none, none => .image "kwant_red"
  | none, some m => .image m
  | some _, some _ => .failed "ValueError"
  | some _, none => .failed "AttributeError"

/-- **C202 (background).** Without `bgcolor` the speed is shown with the given or the default color map; `cmap` and `bgcolor` together are refused. -/
theorem C202_background : background none none = .image "kwant_red" ∧ (∀ m, background (some m) none = .image m) ∧
    ∀ m b, background (some m) (some b) = .failed "ValueError" := ⟨rfl, fun _ => rfl, fun _ _ => rfl⟩

/-- The documented option `bgcolor` never works. -/
theorem C202_counterexample_bgcolor (b : String) : background none (some b) = .failed "AttributeError" := rfl

/-! ## Example -/

/-- The hypotheses of the theorems can be met: a fast and a slow point, and a point without flow. -/
theorem C202_example : vmaxOf none [4, 1, 0] = 4 ∧ lineStyle 3 1 4 4 = (3, 1) ∧ lineStyle 3 1 4 1 = (1, 3 / 4) ∧ lineStyle 3 1 4 0 = (1, 0) ∧
    ¬ LinearGap ((51 : ℕ) / 255 * (expand 0 - expand 1) + expand 1) := by
  have h1 : expand 1 = 1 := by unfold expand; norm_num
  have h0 : expand 0 = 0 := by unfold expand; norm_num
  refine ⟨?_, ?_, ?_, ?_, ?_⟩
  · have : [(4 : ℝ), 1, 0].max? = some 4 := by
      rw [List.max?_eq_some_iff]
      norm_num
    unfold vmaxOf
    simp [this]
  · unfold lineStyle; norm_num
  · unfold lineStyle; norm_num
  · unfold lineStyle; norm_num
  · rw [h0, h1]
    rintro ⟨-, h⟩
    have : ((4045 / 100000 + 55 / 1000) / (1 + 55 / 1000) : ℝ) ^ ((24 : ℝ) / 10) ≤ ((4045 / 100000 + 55 / 1000) / (1 + 55 / 1000) : ℝ) ^ (1 : ℝ) :=
      Real.rpow_le_rpow_of_exponent_ge (by norm_num) (by norm_num) (by norm_num)
    rw [Real.rpow_one] at this
    norm_num at h this
    linarith

end Kwant.Stream
