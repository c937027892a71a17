import Verif.Plot.MapModel

/-! C176, C177: proofs. -/

set_option linter.unusedSectionVars false

namespace Kwant.MapPlot

variable {d : ℕ}

theorem npRound_int (z : ℤ) : npRound (z : ℝ) = z := by
  unfold npRound
  rw [if_neg (by simp)]
  simp

theorem cmin_spec (c0 : Pos d) (rest : List (Pos d)) (i : Fin d) :
    (∃ c ∈ c0 :: rest, c i = cmin c0 rest i) ∧ ∀ c ∈ c0 :: rest, cmin c0 rest i ≤ c i := by
  unfold cmin
  induction rest with
  | nil => simp
  | cons x rest ih =>
    obtain ⟨⟨c, hc, e⟩, h⟩ := ih
    rw [List.foldr_cons]
    constructor
    · rcases min_choice (x i) (rest.foldr (fun c m => min (c i) m) (c0 i)) with h1 | h1
      · exact ⟨x, by simp, h1.symm⟩
      · refine ⟨c, ?_, by rw [h1, e]⟩
        simp only [List.mem_cons] at hc ⊢
        tauto
    · intro c hc
      simp only [List.mem_cons] at hc
      rcases hc with rfl | rfl | hc
      · exact (min_le_right _ _).trans (h _ (by simp))
      · exact min_le_left _ _
      · exact (min_le_right _ _).trans (h _ (by simp [hc]))

theorem cmax_spec (c0 : Pos d) (rest : List (Pos d)) (i : Fin d) :
    (∃ c ∈ c0 :: rest, c i = cmax c0 rest i) ∧ ∀ c ∈ c0 :: rest, c i ≤ cmax c0 rest i := by
  unfold cmax
  induction rest with
  | nil => simp
  | cons x rest ih =>
    obtain ⟨⟨c, hc, e⟩, h⟩ := ih
    rw [List.foldr_cons]
    constructor
    · rcases max_choice (x i) (rest.foldr (fun c m => max (c i) m) (c0 i)) with h1 | h1
      · exact ⟨x, by simp, h1.symm⟩
      · refine ⟨c, ?_, by rw [h1, e]⟩
        simp only [List.mem_cons] at hc ⊢
        tauto
    · intro c hc
      simp only [List.mem_cons] at hc
      rcases hc with rfl | rfl | hc
      · exact (h _ (by simp)).trans (le_max_right _ _)
      · exact le_max_left _ _
      · exact (h _ (by simp [hc])).trans (le_max_right _ _)

theorem ok_fields {c0 : Pos d} {rest : List (Pos d)} {values : List ℝ} {a : ℝ} {ov : ℕ} {interp : Pos d → ℝ} {query : Pos d → ℝ} {im : Image d}
    (h : maskInterpolate c0 rest values a ov interp query = .ok im) :
    (c0 :: rest).length = values.length ∧
    (∀ i, im.lo i = cmin c0 rest i - 0.5 * (ov - 1) * a / ov) ∧ (∀ i, im.hi i = cmax c0 rest i + 0.5 * (ov - 1) * a / ov) ∧
    (∀ i, im.shape i = (npRound (((cmax c0 rest i - cmin c0 rest i) / a + 1) * ov)).natAbs) ∧
    (∀ j, im.img j = interp (im.pos j)) ∧ ∀ j, im.mask j ↔ query (im.pos j) > 0.99 * a := by
  unfold maskInterpolate at h
  split at h
  · cases h
  · split at h
    · cases h
    · rename_i h2
      cases h
      exact ⟨not_not.mp h2, fun _ => rfl, fun _ => rfl, fun _ => rfl, fun _ => rfl, fun _ => Iff.rfl⟩

/-- C176: the masked pixels: every pixel that is shown is near a site, every pixel that is very near a site is shown, its value is the interpolated one. -/
theorem C176_mask {c0 : Pos d} {rest : List (Pos d)} {values : List ℝ} {a : ℝ} {ov : ℕ} {interp : Pos d → ℝ} {query : Pos d → ℝ} {im : Image d}
    (hq : QueryOk (c0 :: rest) query) (h : maskInterpolate c0 rest values a ov interp query = .ok im) (j : Fin d → ℕ) :
    im.img j = interp (im.pos j) ∧ (¬ im.mask j → ∃ c ∈ c0 :: rest, dist (im.pos j) c ≤ 0.99 * a) ∧
      ((∃ c ∈ c0 :: rest, dist (im.pos j) c ≤ 0.99 * a / 1.4) → ¬ im.mask j) := by
  obtain ⟨-, -, -, -, h5, h6⟩ := ok_fields h
  refine ⟨h5 j, ?_, ?_⟩
  · intro hm
    rw [h6, not_lt] at hm
    obtain ⟨c, hc, e⟩ := (hq (im.pos j)).1
    exact ⟨c, hc, e ▸ hm⟩
  · rintro ⟨c, hc, hd⟩
    rw [h6, not_lt]
    have := (hq (im.pos j)).2 c hc
    rw [le_div_iff₀ (by norm_num)] at hd
    linarith

/-- The pixels of a square lattice. -/
theorem lattice_grid {a : ℝ} (ha : 0 < a) (k : ℕ) {o lo hi : ℝ} {m M n : ℤ} (h1 : m ≤ n) (h2 : n ≤ M) (hlo : lo = o + a * m) (hhi : hi = o + a * M) :
    (npRound (((hi - lo) / a + 1) * ((2 * k + 1 : ℕ) : ℝ))).natAbs = ((M - m).toNat + 1) * (2 * k + 1) ∧
    (n - m).toNat * (2 * k + 1) + k < ((M - m).toNat + 1) * (2 * k + 1) ∧
    grid (lo - 0.5 * (((2 * k + 1 : ℕ) : ℝ) - 1) * a / ((2 * k + 1 : ℕ) : ℝ)) (hi + 0.5 * (((2 * k + 1 : ℕ) : ℝ) - 1) * a / ((2 * k + 1 : ℕ) : ℝ))
      (((M - m).toNat + 1) * (2 * k + 1)) ((n - m).toNat * (2 * k + 1) + k) = o + a * n ∧
    (((M - m).toNat + 1) * (2 * k + 1) ≠ 1 →
      lo - 0.5 * (((2 * k + 1 : ℕ) : ℝ) - 1) * a / ((2 * k + 1 : ℕ) : ℝ) < hi + 0.5 * (((2 * k + 1 : ℕ) : ℝ) - 1) * a / ((2 * k + 1 : ℕ) : ℝ)) := by
  have hv : (0 : ℝ) < ((2 * k + 1 : ℕ) : ℝ) := by positivity
  refine ⟨?_, ?_, ?_, ?_⟩
  · have e : ((hi - lo) / a + 1) * ((2 * k + 1 : ℕ) : ℝ) = (((M - m + 1) * (2 * k + 1) : ℤ) : ℝ) := by
      rw [hlo, hhi]
      field_simp
      push_cast
      ring
    rw [e, npRound_int]
    have h3 : (M - m + 1) * (2 * k + 1) = ((((M - m).toNat + 1) * (2 * k + 1) : ℕ) : ℤ) := by
      push_cast
      rw [Int.toNat_of_nonneg (by omega)]
    rw [h3]
    rfl
  · have h3 : (n - m).toNat ≤ (M - m).toNat := by omega
    nlinarith
  · have e1 : (((n - m).toNat : ℕ) : ℝ) = (n : ℝ) - m := by
      rw [← Int.cast_natCast, Int.toNat_of_nonneg (by omega)]
      push_cast
      ring
    have e2 : (((M - m).toNat : ℕ) : ℝ) = (M : ℝ) - m := by
      rw [← Int.cast_natCast, Int.toNat_of_nonneg (by omega)]
      push_cast
      ring
    unfold grid
    split
    · rename_i h3
      have hM : (M - m).toNat = 0 ∧ k = 0 := by
        have := Nat.eq_one_of_mul_eq_one_right h3
        have := Nat.eq_one_of_mul_eq_one_left h3
        omega
      obtain ⟨hM, hk⟩ := hM
      have hn : n = m := by omega
      subst hk hn
      rw [hlo]
      simp
    · rename_i h3
      push_cast
      rw [e1, e2]
      have hT : ((M : ℝ) - m + 1) * (2 * k + 1) - 1 ≠ 0 := by
        intro h0
        apply h3
        have : ((((M - m).toNat + 1) * (2 * k + 1) : ℕ) : ℝ) = 1 := by
          push_cast
          rw [e2]
          linarith
        exact_mod_cast this
      have hk : (2 * (k : ℝ) + 1) ≠ 0 := by positivity
      rw [hlo, hhi]
      have key : (o + a * (M : ℝ) + 0.5 * (2 * (k : ℝ) + 1 - 1) * a / (2 * k + 1) - (o + a * m - 0.5 * (2 * (k : ℝ) + 1 - 1) * a / (2 * k + 1))) =
          a / (2 * k + 1) * (((M : ℝ) - m + 1) * (2 * k + 1) - 1) := by
        field_simp
        ring
      rw [key, mul_div_assoc (a / (2 * (k : ℝ) + 1)), div_self hT]
      field_simp
      ring

  · intro h3
    rw [hlo, hhi]
    have hk : (0 : ℝ) ≤ k := Nat.cast_nonneg k
    have hMm : (m : ℝ) ≤ M := by exact_mod_cast h1.trans h2
    have key : (0 : ℝ) ≤ 0.5 * (((2 * k + 1 : ℕ) : ℝ) - 1) * a / ((2 * k + 1 : ℕ) : ℝ) := by
      apply div_nonneg _ hv.le
      push_cast
      have : (0 : ℝ) ≤ k * a := by positivity
      nlinarith
    by_cases hm : m = M
    · have hk0 : k ≠ 0 := by
        rintro rfl
        apply h3
        rw [hm]
        simp
      have hk1 : (0 : ℝ) < k := by
        have : 0 < k := by omega
        exact_mod_cast this
      have : (0 : ℝ) < 0.5 * (((2 * k + 1 : ℕ) : ℝ) - 1) * a / ((2 * k + 1 : ℕ) : ℝ) := by
        apply div_pos _ hv
        push_cast
        have : (0 : ℝ) < k * a := by positivity
        nlinarith
      rw [hm]
      linarith
    · have : (m : ℝ) < M := by
        have : m < M := by omega
        exact_mod_cast this
      nlinarith

theorem grid_inj {lo hi : ℝ} {n j j' : ℕ} (h : n ≠ 1 → lo < hi) (hj : j < n) (hj' : j' < n) (e : grid lo hi n j = grid lo hi n j') : j = j' := by
  by_cases hn : n = 1
  · omega
  · unfold grid at e
    rw [if_neg hn, if_neg hn] at e
    have h1 : (0 : ℝ) < (n : ℝ) - 1 := by
      have : (2 : ℝ) ≤ n := by exact_mod_cast (show 2 ≤ n by omega)
      linarith
    have h2 : 0 < (hi - lo) / ((n : ℝ) - 1) := div_pos (by linarith [h hn]) h1
    have h3 : (j : ℝ) = j' := by
      have := add_left_cancel e
      exact mul_right_cancel₀ (ne_of_gt h2) this
    exact_mod_cast h3

/-- What is known of a square lattice: the pixels of a site. -/
theorem square_pixel {c0 : Pos d} {rest : List (Pos d)} {values : List ℝ} {a : ℝ} (ha : 0 < a) (k : ℕ) {interp : Pos d → ℝ} {query : Pos d → ℝ} {im : Image d}
    (hl : OnSquareLattice a (c0 :: rest)) (h : maskInterpolate c0 rest values a (2 * k + 1) interp query = .ok im) {c : Pos d} (hc : c ∈ c0 :: rest) :
    ∃ j, im.Pixel j ∧ im.pos j = c ∧ ∀ j', im.Pixel j' → im.pos j' = c → j' = j := by
  obtain ⟨h1, h2, h3, h4, h5, h6⟩ := ok_fields h
  obtain ⟨o, ho⟩ := hl
  obtain ⟨z, hz⟩ := ho c hc
  have hdim : ∀ i, ∃ j : ℕ, j < im.shape i ∧ grid (im.lo i) (im.hi i) (im.shape i) j = c i ∧ (im.shape i ≠ 1 → im.lo i < im.hi i) := by
    intro i
    obtain ⟨⟨cl, hcl, el⟩, hle⟩ := cmin_spec c0 rest i
    obtain ⟨⟨ch, hch, eh⟩, hge⟩ := cmax_spec c0 rest i
    obtain ⟨m, hm⟩ := ho cl hcl
    obtain ⟨M, hM⟩ := ho ch hch
    have a1 : m i ≤ z i := by
      have := hle c hc
      rw [← el, hm, hz] at this
      have : (m i : ℝ) ≤ z i := by nlinarith
      exact_mod_cast this
    have a2 : z i ≤ M i := by
      have := hge c hc
      rw [← eh, hM, hz] at this
      have : (z i : ℝ) ≤ M i := by nlinarith
      exact_mod_cast this
    obtain ⟨b1, b2, b3, b4⟩ := lattice_grid ha k a1 a2 (el.symm.trans (hm i)) (eh.symm.trans (hM i))
    refine ⟨(z i - m i).toNat * (2 * k + 1) + k, ?_, ?_, ?_⟩
    · rw [h4, b1]
      exact b2
    · rw [h4, h2, h3, b1, b3, hz]
    · rw [h4, h2, h3, b1]
      exact b4
  choose j hj1 hj2 hj3 using hdim
  refine ⟨j, hj1, ?_, ?_⟩
  · ext i
    exact hj2 i
  · intro j' hj' e
    funext i
    have e' : (im.pos j') i = c i := by rw [e]
    exact grid_inj (hj3 i) (hj' i) (hj1 i) (e'.trans (hj2 i).symm)

/-- C176: on a square lattice with odd oversampling each site lies exactly at a pixel, which is shown and has the value of the site. -/
theorem C176_square {c0 : Pos d} {rest : List (Pos d)} {values : List ℝ} {a : ℝ} (ha : 0 < a) (k : ℕ) {interp : Pos d → ℝ} {query : Pos d → ℝ} {im : Image d}
    (hi : Interpolates (c0 :: rest) values interp) (hq : QueryOk (c0 :: rest) query) (hl : OnSquareLattice a (c0 :: rest))
    (h : maskInterpolate c0 rest values a (2 * k + 1) interp query = .ok im) :
    ∀ (n : ℕ) (c : Pos d), (c0 :: rest)[n]? = some c → ∃ j, im.Pixel j ∧ im.pos j = c ∧ (∀ j', im.Pixel j' → im.pos j' = c → j' = j) ∧
      ¬ im.mask j ∧ values[n]? = some (im.img j) := by
  intro n c hn
  obtain ⟨h1, -, -, -, h5, h6⟩ := ok_fields h
  have hc : c ∈ c0 :: rest := List.mem_of_getElem? hn
  obtain ⟨j, hj1, hpos, hj3⟩ := square_pixel ha k hl h hc
  have hlen : n < values.length := by
    rw [← h1]
    exact (List.getElem?_eq_some_iff.mp hn).1
  refine ⟨j, hj1, hpos, hj3, ?_, ?_⟩
  · rw [h6, hpos, not_lt]
    have := (hq c).2 c hc
    rw [dist_self, mul_zero] at this
    linarith
  · rw [h5, hpos, hi n c values[n] hn (by simp)]
    simp

/-- C176: with oversampling 1 the pixels that are shown correspond one to one to the (positions of the) sites. -/
theorem C176_one {c0 : Pos d} {rest : List (Pos d)} {values : List ℝ} {a : ℝ} (ha : 0 < a) {interp : Pos d → ℝ} {query : Pos d → ℝ} {im : Image d}
    (hq : QueryOk (c0 :: rest) query) (hl : OnSquareLattice a (c0 :: rest))
    (h : maskInterpolate c0 rest values a 1 interp query = .ok im) :
    (∀ j, ¬ im.mask j ↔ im.pos j ∈ c0 :: rest) ∧ ∀ c ∈ c0 :: rest, ∃! j, im.Pixel j ∧ im.pos j = c := by
  refine ⟨fun j => ?_, fun c hc => ?_⟩
  rotate_left
  · obtain ⟨j, p1, p2, p3⟩ := square_pixel ha 0 hl h hc
    exact ⟨j, ⟨p1, p2⟩, fun j' hj' => p3 j' hj'.1 hj'.2⟩
  obtain ⟨h1, h2, h3, h4, h5, h6⟩ := ok_fields h
  obtain ⟨o, ho⟩ := hl
  rw [h6, not_lt]
  constructor
  · intro hm
    obtain ⟨c, hc, e⟩ := (hq (im.pos j)).1
    rw [e] at hm
    obtain ⟨z, hz⟩ := ho c hc
    have : im.pos j = c := by
      ext i
      have hgrid : ∃ w : ℤ, (im.pos j) i = o i + a * w := by
        obtain ⟨⟨cl, hcl, el⟩, hle⟩ := cmin_spec c0 rest i
        obtain ⟨⟨ch, hch, eh⟩, hge⟩ := cmax_spec c0 rest i
        obtain ⟨m, hm'⟩ := ho cl hcl
        obtain ⟨M, hM⟩ := ho ch hch
        have a1 : m i ≤ M i := by
          have := hle ch hch
          rw [← el, hm', hM] at this
          have : (m i : ℝ) ≤ M i := by nlinarith
          exact_mod_cast this
        obtain ⟨b1, -, -⟩ := lattice_grid ha 0 (le_refl (m i)) a1 (el.symm.trans (hm' i)) (eh.symm.trans (hM i))
        simp only [mul_zero, zero_add, mul_one] at b1
        have e2 : (((M i - m i).toNat : ℕ) : ℝ) = (M i : ℝ) - m i := by
          rw [← Int.cast_natCast, Int.toNat_of_nonneg (by omega)]
          push_cast
          ring
        have hlo : im.lo i = o i + a * m i := by
          rw [h2, ← el, hm']
          simp
        have hhi : im.hi i = o i + a * M i := by
          rw [h3, ← eh, hM]
          simp
        show ∃ w : ℤ, grid (im.lo i) (im.hi i) (im.shape i) (j i) = _
        rw [h4, b1, hlo, hhi]
        unfold grid
        split
        · exact ⟨m i, rfl⟩
        · rename_i hne
          refine ⟨m i + j i, ?_⟩
          have : (M i : ℝ) - m i ≠ 0 := by
            rw [← e2]
            simp only [ne_eq, Nat.cast_eq_zero]
            omega
          push_cast
          rw [e2, show o i + a * (M i : ℝ) - (o i + a * m i) = a * (M i - m i) by ring, show (M i : ℝ) - m i + 1 - 1 = M i - m i by ring, mul_div_assoc,
            div_self this]
          ring
      obtain ⟨w, hw⟩ := hgrid
      have hd : |im.pos j i - c i| ≤ 0.99 * a := by
        have := PiLp.norm_apply_le (im.pos j - c) i
        rw [← dist_eq_norm] at this
        exact this.trans hm
      rw [hw, hz]
      rw [hw, hz, show o i + a * (w : ℝ) - (o i + a * z i) = a * ((w - z i : ℤ) : ℝ) by push_cast; ring, abs_mul, abs_of_pos ha] at hd
      have h0 : |((w - z i : ℤ) : ℝ)| < 1 := by nlinarith
      have : w - z i = 0 := by
        rw [← Int.cast_abs] at h0
        have : |w - z i| < 1 := by exact_mod_cast h0
        exact abs_eq_zero.mp (by have := abs_nonneg (w - z i); omega)
      have : w = z i := by omega
      rw [this]
    rw [this]
    exact hc
  · intro hc
    have := (hq (im.pos j)).2 _ hc
    rw [dist_self, mul_zero] at this
    linarith

/-- C176: `min` and `max` are the positions of the first and of the last pixel, in each direction with more than one pixel. -/
theorem C176_corners (im : Image d) : (∀ i, im.pos (fun _ => 0) i = im.lo i) ∧ ∀ i, 2 ≤ im.shape i → im.pos (fun i => im.shape i - 1) i = im.hi i := by
  constructor
  · intro i
    show grid _ _ _ _ = _
    unfold grid
    split <;> simp
  · intro i hi
    show grid _ _ _ _ = _
    unfold grid
    rw [if_neg (by omega), Nat.cast_sub (by omega)]
    have : (im.shape i : ℝ) - 1 ≠ 0 := by
      have : (2 : ℝ) ≤ im.shape i := by exact_mod_cast hi
      linarith
    push_cast
    rw [mul_div_cancel₀ _ this]
    ring

/-! ## Drawing -/

/-- C177 (partial): with matplotlib every pixel of a picture with at least two pixels in both directions is drawn with its center at its position.  Missing: pictures
that are one pixel wide, and plotly. -/
theorem C177_matplotlib_partial (im : Image 2) (j : Fin 2 → ℕ) (i : Fin 2) (h : 2 ≤ im.shape i) : drawnMpl im j i = some (im.pos j i) := by
  have h2 : (2 : ℝ) ≤ im.shape i := by exact_mod_cast h
  have h1 : (im.shape i : ℝ) - 1 ≠ 0 := by linarith
  have h0 : (im.shape i : ℝ) ≠ 0 := by linarith
  have hp : (im.pos j) i = grid (im.lo i) (im.hi i) (im.shape i) (j i) := rfl
  unfold drawnMpl border
  rw [if_neg (by omega), Option.map_some, hp]
  unfold grid
  rw [if_neg (by omega)]
  congr 1
  field_simp
  ring

/-- C177 fails for pictures that are one pixel wide or high: the border is divided by zero. -/
theorem C177_counterexample_one (im : Image 2) (i : Fin 2) (h : im.shape i = 1) (j : Fin 2 → ℕ) : drawnMpl im j i = none := by
  simp [drawnMpl, border, h]

/-- C177 fails for plotly: the positions of the columns are as many as there are rows, and even if these numbers are equal, only a column in the middle is
drawn at its position. -/
theorem C177_counterexample_plotly (im : Image 2) (h0 : 2 ≤ im.shape 0) (hlt : im.lo 0 < im.hi 0) : ∃ xs, plotlyX im = some xs ∧ xs.length = im.shape 1 ∧
    (im.shape 1 = im.shape 0 → ∀ (j : Fin 2 → ℕ), im.Pixel j → (xs[j 0]? = some (im.pos j 0) ↔ 2 * j 0 + 1 = im.shape 0)) := by
  have h2 : (2 : ℝ) ≤ im.shape 0 := by exact_mod_cast h0
  have h1 : (0 : ℝ) < (im.shape 0 : ℝ) - 1 := by linarith
  unfold plotlyX border
  rw [if_neg (by omega), Option.map_some]
  refine ⟨_, rfl, by simp, ?_⟩
  intro he j hj
  have hp : (im.pos j) 0 = grid (im.lo 0) (im.hi 0) (im.shape 0) (j 0) := rfl
  rw [he, hp, List.getElem?_map, List.getElem?_range (hj 0), Option.map_some, Option.some.injEq]
  unfold grid
  rw [if_neg (by omega), if_neg (by omega)]
  have e : im.lo 0 - 0.5 * (im.hi 0 - im.lo 0) / ((im.shape 0 : ℝ) - 1) +
      (j 0 : ℝ) * ((im.hi 0 + 0.5 * (im.hi 0 - im.lo 0) / ((im.shape 0 : ℝ) - 1) - (im.lo 0 - 0.5 * (im.hi 0 - im.lo 0) / ((im.shape 0 : ℝ) - 1))) /
        ((im.shape 0 : ℝ) - 1)) - (im.lo 0 + (j 0 : ℝ) * ((im.hi 0 - im.lo 0) / ((im.shape 0 : ℝ) - 1))) =
      (im.hi 0 - im.lo 0) / (2 * ((im.shape 0 : ℝ) - 1) ^ 2) * (2 * j 0 + 1 - im.shape 0) := by
    field_simp
    ring
  have hpos : (im.hi 0 - im.lo 0) / (2 * ((im.shape 0 : ℝ) - 1) ^ 2) ≠ 0 := by
    apply ne_of_gt
    apply div_pos (by linarith)
    positivity
  rw [← sub_eq_zero, e, mul_eq_zero, or_iff_right hpos, sub_eq_zero]
  constructor
  · intro h
    exact_mod_cast h
  · intro h
    exact_mod_cast h

/-! ## Examples -/

/-- The contract of `query` can be met. -/
theorem exists_query (c0 : Pos d) (rest : List (Pos d)) : ∃ q, QueryOk (c0 :: rest) q := by
  classical
  have h : ∀ p : Pos d, ∃ c ∈ (c0 :: rest).toFinset, ∀ c' ∈ (c0 :: rest).toFinset, dist p c ≤ dist p c' := fun p =>
    Finset.exists_min_image _ _ ⟨c0, by simp⟩
  choose f hf1 hf2 using h
  refine ⟨fun p => dist p (f p), fun p => ⟨⟨f p, by simpa using hf1 p, rfl⟩, fun c hc => ?_⟩⟩
  have := hf2 p c (by simpa using hc)
  have h0 : 0 ≤ dist p c := dist_nonneg
  show dist p (f p) ≤ 1.4 * dist p c
  linarith

/-- The contract of `griddata` can be met if the positions of the sites are different. -/
theorem exists_interp {sites : List (Pos d)} (hn : sites.Nodup) (values : List ℝ) : ∃ f, Interpolates sites values f := by
  classical
  refine ⟨fun p => if h : ∃ n : ℕ, sites[n]? = some p then (values[h.choose]?).getD 0 else 0, ?_⟩
  intro n c v hc hv
  have h : ∃ n : ℕ, sites[n]? = some c := ⟨n, hc⟩
  simp only [dif_pos h]
  have hi : h.choose = n := by
    have h1 := h.choose_spec
    obtain ⟨a1, a2⟩ := List.getElem?_eq_some_iff.mp h1
    obtain ⟨b1, b2⟩ := List.getElem?_eq_some_iff.mp hc
    exact (List.Nodup.getElem_inj_iff hn).mp (a2.trans b2.symm)
  rw [hi, hv]
  rfl

/-- A position in the plane. -/
noncomputable def pt (x y : ℝ) : Pos 2 := WithLp.toLp 2 ![x, y]

/-- C176, C177: three sites of a square lattice with spacing 1; the picture with oversampling 3 has 6 times 9 pixels. -/
theorem C176_example : ∃ (interp query : Pos 2 → ℝ) (im : Image 2), Interpolates [pt 0 0, pt 1 0, pt 0 2] [5, 6, 7] interp ∧
    QueryOk [pt 0 0, pt 1 0, pt 0 2] query ∧ OnSquareLattice 1 [pt 0 0, pt 1 0, pt 0 2] ∧
    maskInterpolate (pt 0 0) [pt 1 0, pt 0 2] [5, 6, 7] 1 (2 * 1 + 1) interp query = .ok im ∧ im.shape 0 = 6 ∧ im.shape 1 = 9 := by
  have hne : ∀ x y x' y' : ℝ, (x ≠ x' ∨ y ≠ y') → pt x y ≠ pt x' y' := by
    intro x y x' y' h e
    have e0 : (pt x y) 0 = (pt x' y') 0 := by rw [e]
    have e1 : (pt x y) 1 = (pt x' y') 1 := by rw [e]
    simp only [pt, Matrix.cons_val_zero, Matrix.cons_val_one] at e0 e1
    tauto
  obtain ⟨interp, hi⟩ := exists_interp (sites := [pt 0 0, pt 1 0, pt 0 2])
    (by simp [hne 0 0 1 0 (by norm_num), hne 0 0 0 2 (by norm_num), hne 1 0 0 2 (by norm_num)]) [5, 6, 7]
  obtain ⟨query, hq⟩ := exists_query (pt 0 0) [pt 1 0, pt 0 2]
  have m0 : cmin (pt 0 0) [pt 1 0, pt 0 2] 0 = 0 := by norm_num [cmin, pt]
  have m1 : cmin (pt 0 0) [pt 1 0, pt 0 2] 1 = 0 := by norm_num [cmin, pt]
  have M0 : cmax (pt 0 0) [pt 1 0, pt 0 2] 0 = 1 := by norm_num [cmax, pt]
  have M1 : cmax (pt 0 0) [pt 1 0, pt 0 2] 1 = 2 := by norm_num [cmax, pt]
  have hnorm : ¬ (1 : ℝ) < 1e-6 * ‖(WithLp.toLp 2 fun i => cmax (pt 0 0) [pt 1 0, pt 0 2] i - cmin (pt 0 0) [pt 1 0, pt 0 2] i : Pos 2)‖ := by
    rw [EuclideanSpace.norm_eq]
    simp only [Fin.sum_univ_two, m0, m1, M0, M1]
    have : Real.sqrt (‖(1 : ℝ) - 0‖ ^ 2 + ‖(2 : ℝ) - 0‖ ^ 2) ≤ 1000 := by
      rw [Real.sqrt_le_left (by norm_num)]
      norm_num
    rw [not_lt]
    calc (1e-6 : ℝ) * Real.sqrt (‖(1 : ℝ) - 0‖ ^ 2 + ‖(2 : ℝ) - 0‖ ^ 2) ≤ 1e-6 * 1000 := by gcongr
      _ ≤ 1 := by norm_num
  refine ⟨interp, query, _, hi, hq, ?_, by rw [maskInterpolate, if_neg hnorm, if_neg (by simp)], ?_, ?_⟩
  · refine ⟨fun _ => 0, ?_⟩
    intro c hc
    simp only [List.mem_cons, List.not_mem_nil, or_false] at hc
    rcases hc with rfl | rfl | rfl
    · exact ⟨![0, 0], fun i => by fin_cases i <;> simp [pt]⟩
    · exact ⟨![1, 0], fun i => by fin_cases i <;> simp [pt]⟩
    · exact ⟨![0, 2], fun i => by fin_cases i <;> simp [pt]⟩
  · have := npRound_int 6
    simp only [m0, M0]
    norm_num at this ⊢
    rw [this]
    rfl
  · have := npRound_int 9
    simp only [m1, M1]
    norm_num at this ⊢
    rw [this]
    rfl

/-- C177: a system with two sites above each other, with oversampling 1, gives a picture that is one pixel wide. -/
theorem C177_example_one (interp query : Pos 2 → ℝ) : ∃ im, maskInterpolate (pt 0 0) [pt 0 1] [5, 6] 1 1 interp query = .ok im ∧ im.shape 0 = 1 := by
  have m0 : cmin (pt 0 0) [pt 0 1] 0 = 0 := by norm_num [cmin, pt]
  have m1 : cmin (pt 0 0) [pt 0 1] 1 = 0 := by norm_num [cmin, pt]
  have M0 : cmax (pt 0 0) [pt 0 1] 0 = 0 := by norm_num [cmax, pt]
  have M1 : cmax (pt 0 0) [pt 0 1] 1 = 1 := by norm_num [cmax, pt]
  have hnorm : ¬ (1 : ℝ) < 1e-6 * ‖(WithLp.toLp 2 fun i => cmax (pt 0 0) [pt 0 1] i - cmin (pt 0 0) [pt 0 1] i : Pos 2)‖ := by
    rw [EuclideanSpace.norm_eq]
    simp only [Fin.sum_univ_two, m0, m1, M0, M1]
    norm_num
  refine ⟨_, by rw [maskInterpolate, if_neg hnorm, if_neg (by simp)], ?_⟩
  have := npRound_int 1
  simp only [m0, M0]
  norm_num at this ⊢
  rw [this]
  rfl

end Kwant.MapPlot
