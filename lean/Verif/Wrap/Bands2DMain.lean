import Verif.Wrap.Bands2DZone

/-! C187: the theorems about `plot_2d_bands`. -/

set_option linter.unusedSectionVars false

namespace Kwant.Bands2D
open Kwant.LLL Kwant.Cvp Kwant.Voronoi Kwant.Lat Kwant.Spectrum

local notation "⟪" x ", " y "⟫" => inner ℝ x y

variable {V H : Type} {a : Fin 2 → Pl}

/-! ### `lll` for two vectors -/

theorem npRound_half {x : ℝ} (h : |x| ≤ 1 / 2) : npRound x = 0 := by
  obtain ⟨h1, h2⟩ := abs_le.mp h
  unfold npRound
  rcases le_or_gt 0 x with h0 | h0
  · have e : ⌊x⌋ = 0 := Int.floor_eq_iff.mpr ⟨by simpa using h0, by norm_num; linarith⟩
    rw [e]
    norm_num
    intro h3
    linarith
  · have e : ⌊x⌋ = -1 := Int.floor_eq_iff.mpr ⟨by push_cast; linarith, by push_cast; linarith⟩
    rw [e]
    norm_num
    linarith

section LLLTwo
variable {E : Type*} [NormedAddCommGroup E] [InnerProductSpace ℝ E] (b : ℕ → E)

theorem init_two : (initSt 2 b).vecs 0 = b 0 ∧ (initSt 2 b).vecs 1 = b 1 - (npRound (gsCoef (b 1) (b 0)) : ℝ) • b 0 ∧ (initSt 2 b).star 0 = b 0 ∧
    (initSt 2 b).star 1 = b 1 - gsCoef (b 1) (b 0) • b 0 ∧ (initSt 2 b).u 1 0 = gsCoef (b 1) (b 0) - npRound (gsCoef (b 1) (b 0)) := by
  refine ⟨?_, ?_, ?_, ?_, ?_⟩ <;>
    simp [initSt, initRow, llReduce, initInner, redStep, List.range_succ, Function.update]

theorem swap_two {s : St E} {c : ℝ} (hl : ¬ lovasz c 0 s) (hu : |gsCoef (s.vecs 0) (s.star 1 + s.u 1 0 • s.star 0)| ≤ 1 / 2) :
    mainStep 2 c (0, s) = (0, swapSt 0 s) := by
  unfold mainStep
  rw [if_neg hl]
  have e : refresh 2 0 (swapSt 0 s) = swapSt 0 s := rfl
  unfold swapStep
  rw [e]
  unfold maybeReduce
  have : (swapSt 0 s).u (0 + 1) 0 = gsCoef (s.vecs 0) (s.star 1 + s.u 1 0 • s.star 0) := by simp [swapSt]
  rw [this, if_neg (not_lt.mpr hu)]
  rfl

theorem loop_now {s : St E} {c : ℝ} (hl : lovasz c 0 s) (fuel : ℕ) {r : St E} (h : mainLoop 2 c fuel (0, s) = some r) : r = s := by
  cases fuel with
  | zero => cases h
  | succ f =>
    unfold mainLoop at h
    rw [if_pos (by norm_num)] at h
    have : mainStep 2 c (0, s) = (1, s) := by unfold mainStep; rw [if_pos hl]
    rw [this] at h
    cases f with
    | zero => cases h
    | succ f =>
      unfold mainLoop at h
      rw [if_neg (by norm_num)] at h
      exact (Option.some.inj h).symm

end LLLTwo

theorem coefs_unique {r v : Fin 2 → Pl} (hr : LinearIndependent ℝ r) {c M : Matrix (Fin 2) (Fin 2) ℤ} (hc : ∀ k, v k = ∑ j, c j k • r j)
    (hM : ∀ k, v k = ∑ j, M j k • r j) : c = M := by
  ext j k
  have h : ∑ j, ((c j k - M j k : ℤ) : ℝ) • r j = 0 := by
    simp only [Int.cast_smul_eq_zsmul, sub_smul, Finset.sum_sub_distrib]
    rw [← hc, ← hM, sub_self]
  have := Fintype.linearIndependent_iff.mp hr _ h j
  have := Int.cast_eq_zero.mp this
  omega

theorem lll_vecs {N : Num Pl 2} {r v : Fin 2 → Pl} {coefs : Matrix (Fin 2) (Fin 2) ℤ} {fuel : ℕ} (hl : lll N.lstsq r 1.34 fuel = some (.ok (v, coefs))) :
    ∃ s, mainLoop 2 1.34 fuel (0, initSt 2 (rows r)) = some s ∧ v = fun k : Fin 2 => s.vecs k := by
  unfold lll at hl
  obtain ⟨s, hs, hf⟩ := Option.map_eq_some_iff.mp hl
  refine ⟨s, hs, ?_⟩
  unfold finish at hf
  split at hf
  · cases hf
  · split at hf
    · cases hf
    · exact (Prod.mk.inj (Except.ok.inj hf)).1.symm

theorem norm_sub_proj {E : Type*} [NormedAddCommGroup E] [InnerProductSpace ℝ E] {x y : E} (hy : y ≠ 0) : ‖x - gsCoef x y • y‖ ^ 2 = ‖x‖ ^ 2 - gsCoef x y ^ 2 * ‖y‖ ^ 2 := by
  have hn : ‖y‖ ^ 2 ≠ 0 := pow_ne_zero 2 (norm_ne_zero_iff.mpr hy)
  have hi : ⟪x, y⟫ = gsCoef x y * ‖y‖ ^ 2 := by unfold gsCoef; rw [div_mul_cancel₀ _ hn]
  rw [norm_sub_sq_real, inner_smul_right, norm_smul, mul_pow, Real.norm_eq_abs, sq_abs, hi]
  ring

theorem gs_half {E : Type*} [NormedAddCommGroup E] [InnerProductSpace ℝ E] {x y : E} (h : 2 * |⟪x, y⟫| ≤ ‖y‖ ^ 2) : |gsCoef x y| ≤ 1 / 2 := by
  unfold gsCoef
  rw [abs_div, abs_of_nonneg (sq_nonneg ‖y‖)]
  rcases (sq_nonneg ‖y‖).eq_or_lt with h0 | h0
  · rw [← h0, div_zero]; norm_num
  · rw [div_le_iff₀ h0]; linarith

/-- If the angle of the two vectors is between 60 and 120 degrees or so, they are at most swapped. -/
theorem symm_of_reduced {N : Num Pl 2} (hN : NumOk N) {r v : Fin 2 → Pl} (hr : LinearIndependent ℝ r) {coefs : Matrix (Fin 2) (Fin 2) ℤ} {fuel : ℕ}
    (h0 : 2 * |⟪r 0, r 1⟫| ≤ ‖r 0‖ ^ 2) (h1 : 2 * |⟪r 0, r 1⟫| ≤ ‖r 1‖ ^ 2) (hl : lll N.lstsq r 1.34 fuel = some (.ok (v, coefs))) : coefs.transpose = coefs := by
  obtain ⟨v', coefs', e, -, -, hcols, -, -⟩ := C70_lll hN.lstsq hr hl
  obtain ⟨rfl, rfl⟩ := Prod.mk.inj (Except.ok.inj e)
  obtain ⟨s, hs, hv⟩ := lll_vecs hl
  have q0 : rows r 0 = r 0 := rfl
  have q1 : rows r 1 = r 1 := rfl
  have n0 : r 0 ≠ 0 := hr.ne_zero 0
  have n1 : r 1 ≠ 0 := hr.ne_zero 1
  obtain ⟨i0, i1, i2, i3, i4⟩ := init_two (rows r)
  rw [q0, q1] at i1 i3 i4
  rw [q0] at i0 i2
  have hm : |gsCoef (r 1) (r 0)| ≤ 1 / 2 := gs_half (by rw [real_inner_comm]; exact h0)
  have hm' : |gsCoef (r 0) (r 1)| ≤ 1 / 2 := gs_half h1
  rw [npRound_half hm] at i1 i4
  rw [Int.cast_zero, zero_smul, sub_zero] at i1
  rw [Int.cast_zero, sub_zero] at i4
  generalize initSt 2 (rows r) = s0 at *
  have e0 := norm_sub_proj (x := r 1) n0
  have e1 := norm_sub_proj (x := r 0) n1
  have p0 : 0 < ‖r 0‖ ^ 2 := by positivity
  have p1 : 0 < ‖r 1‖ ^ 2 := by positivity
  have m0 : gsCoef (r 1) (r 0) ^ 2 ≤ 1 / 4 := by
    rw [← sq_abs]; nlinarith [abs_nonneg (gsCoef (r 1) (r 0))]
  have m1 : gsCoef (r 0) (r 1) ^ 2 ≤ 1 / 4 := by
    rw [← sq_abs]; nlinarith [abs_nonneg (gsCoef (r 0) (r 1))]
  by_cases hlov : lovasz 1.34 0 s0
  · have := loop_now hlov fuel hs
    subst this
    have : coefs = 1 := coefs_unique hr hcols fun k => by
      rw [hv, Fin.sum_univ_two]
      rcases Fin.exists_fin_two.mp ⟨k, rfl⟩ with rfl | rfl
      · show s.vecs 0 = _
        rw [i0]; simp
      · show s.vecs 1 = _
        rw [i1]; simp
    rw [this, Matrix.transpose_one]
  · have ha : s0.star 1 + s0.u 1 0 • s0.star 0 = r 1 := by rw [i3, i4, i2, sub_add_cancel]
    have hst := swap_two hlov (by rw [ha, i0]; exact hm')
    cases fuel with
    | zero => cases hs
    | succ f =>
      unfold mainLoop at hs
      rw [if_pos (by norm_num), hst] at hs
      have t0 : (swapSt 0 s0).star 0 = r 1 := by simp [swapSt, ha]
      have t1 : (swapSt 0 s0).star 1 = r 0 - gsCoef (r 0) (r 1) • r 1 := by
        have : (swapSt 0 s0).star 1 = s0.star 0 - gsCoef (s0.vecs 0) (s0.star 1 + s0.u 1 0 • s0.star 0) • (s0.star 1 + s0.u 1 0 • s0.star 0) := by
          simp [swapSt]
        rw [this, ha, i2, i0]
      have hlov' : lovasz 1.34 0 (swapSt 0 s0) := by
        unfold lovasz at hlov ⊢
        rw [i2, zero_add, i3, e0] at hlov
        rw [t0, zero_add, t1, e1]
        have b0 : gsCoef (r 1) (r 0) ^ 2 * ‖r 0‖ ^ 2 ≤ 1 / 4 * ‖r 0‖ ^ 2 := mul_le_mul_of_nonneg_right m0 p0.le
        have b1 : gsCoef (r 0) (r 1) ^ 2 * ‖r 1‖ ^ 2 ≤ 1 / 4 * ‖r 1‖ ^ 2 := mul_le_mul_of_nonneg_right m1 p1.le
        linarith
      have := loop_now hlov' f hs
      subst this
      have : coefs = !![0, 1; 1, 0] := coefs_unique hr hcols fun k => by
        rw [hv, Fin.sum_univ_two]
        rcases Fin.exists_fin_two.mp ⟨k, rfl⟩ with rfl | rfl
        · show (swapSt 0 s0).vecs 0 = _
          simp [swapSt, i1]
        · show (swapSt 0 s0).vecs 1 = _
          simp [swapSt, i0]
      rw [this]
      ext i j
      fin_cases i <;> fin_cases j <;> rfl

theorem recip_short (h : Indep a) (h0 : 2 * |⟪a 0, a 1⟫| ≤ ‖a 0‖ ^ 2) (h1 : 2 * |⟪a 0, a 1⟫| ≤ ‖a 1‖ ^ 2) :
    2 * |⟪recip a 0, recip a 1⟫| ≤ ‖recip a 0‖ ^ 2 ∧ 2 * |⟪recip a 0, recip a 1⟫| ≤ ‖recip a 1‖ ^ 2 := by
  obtain ⟨e0, e1, e2, e3⟩ := recip_zero h
  have h' : a 0 0 * a 1 1 - a 0 1 * a 1 0 ≠ 0 := h
  set D := a 0 0 * a 1 1 - a 0 1 * a 1 0
  have hD : 0 < D ^ 2 := by positivity
  have i1 : ⟪recip a 0, recip a 1⟫ = -⟪a 0, a 1⟫ / D ^ 2 := by
    rw [inner_two, inner_two, e0, e1, e2, e3, div_mul_div_comm, div_mul_div_comm, ← add_div, pow_two D]; congr 1; ring
  have i2 : ‖recip a 0‖ ^ 2 = ‖a 1‖ ^ 2 / D ^ 2 := by
    rw [← real_inner_self_eq_norm_sq, ← real_inner_self_eq_norm_sq, inner_two, inner_two, e0, e1, div_mul_div_comm, div_mul_div_comm, ← add_div, pow_two D]; congr 1; ring
  have i3 : ‖recip a 1‖ ^ 2 = ‖a 0‖ ^ 2 / D ^ 2 := by
    rw [← real_inner_self_eq_norm_sq, ← real_inner_self_eq_norm_sq, inner_two, inner_two, e2, e3, div_mul_div_comm, div_mul_div_comm, ← add_div, pow_two D]; congr 1; ring
  rw [i1, i2, i3, abs_div, abs_neg, abs_of_pos hD, ← mul_div_assoc]
  exact ⟨div_le_div_of_nonneg_right h1 hD.le, div_le_div_of_nonneg_right h0 hD.le⟩

/-! ### Lattice momenta -/

theorem momentum {N : Num Pl 2} (hN : NumOk N) (h : Indep a) (k : Pl) (i : Fin 2) : momentumToLattice N a k i = ⟪a i, k⟫ := by
  unfold momentumToLattice
  have hz : k - realPt (recip a) (N.lsq (recip a) k) = 0 := by
    have hl := hN.lsq (recip a) k
    have h0 := hl 0
    have h1 := hl 1
    rw [inner_two] at h0 h1
    have hd := recip_det h
    set e := k - realPt (recip a) (N.lsq (recip a) k)
    have p : e 0 = 0 := by
      apply mul_left_cancel₀ hd
      linear_combination (recip a 1 1) * h0 - (recip a 0 1) * h1
    have q : e 1 = 0 := by
      apply mul_left_cancel₀ hd
      linear_combination (recip a 0 0) * h1 - (recip a 1 0) * h0
    ext j
    fin_cases j
    · exact p
    · exact q
  rw [sub_eq_zero] at hz
  conv_rhs => rw [hz]
  unfold realPt
  simp only [inner_sum, real_inner_smul_right, dual h]
  simp

/-- The point of the plane with these coordinates. -/
noncomputable def mk (x y : ℝ) : Pl := WithLp.toLp 2 ![x, y]

theorem kOf_point (x y : ℝ) : kOf (V := V) (lookup [("k_x", .num x), ("k_y", .num y)]) = mk x y := by
  unfold kOf mk
  rfl

theorem kOf_assigns {params : Dict String (PVal V)} {x y : ℝ} {f : String → Option (PVal V)} (hf : Assigns params [("k_x", .num x), ("k_y", .num y)] f) : kOf f = mk x y := by
  unfold kOf mk
  rw [hf.1 "k_x" (.num x) (by simp), hf.1 "k_y" (.num y) (by simp)]
  rfl

/-! ### Theorems -/

/-- The points of an axis: those that were given, or the number that was given of equally spaced ones, from one end of the box (extended on both sides) to the other. -/
def AxisSpec (k : Grid) (extend km : ℝ) (vals : List (PVal V)) : Prop :=
  match k with
  | .points l => vals = l.map PVal.num
  | .number n => vals.length = n ∧ (n = 1 → vals[0]? = some (.num (-((1 + extend) * km)))) ∧
      ∀ i < n, 1 < n → vals[i]? = some (.num (-((1 + extend) * km) + i * (2 * ((1 + extend) * km)) / ((n : ℝ) - 1)))

theorem axis_spec (k : Grid) (extend km : ℝ) : AxisSpec (V := V) k extend km ((axisPoints k extend km).map PVal.num) := by
  cases k with
  | points l => rfl
  | number n =>
    unfold AxisSpec axisPoints linspace
    simp only
    have e : (if extend ≠ 0 then km + km * extend else km) = (1 + extend) * km := by
      split
      · ring
      · next h => rw [not_not.mp h]; ring
    rw [e]
    refine ⟨by simp, fun hn => by subst hn; simp, fun i hi hn => ?_⟩
    rw [List.getElem?_map, List.getElem?_map, List.getElem?_range hi]
    simp only [Option.map_some, if_neg (show n ≠ 1 by omega)]
    congr 2
    ring

variable {E : Type}

theorem plot_eq {N : Num Pl 2} {vor : List Pl → List Pl} {eig : H → List E} {periods : Fin 2 → Fin 2 → ℝ} {names : List String} {ham : (String → Option (PVal V)) → H}
    {kx ky : Grid} {params : Dict String (PVal V)} {mask : Bool} {extend : ℝ} {fuel : ℕ} :
    plot2dBands N vor eig (some ⟨2, 2, periods, names, .finite, ham⟩) kx ky params mask extend fuel =
      bands N vor eig (fun i => WithLp.toLp 2 (periods i)) names ham kx ky params mask extend fuel := rfl

theorem bands_ok {N : Num Pl 2} {vor : List Pl → List Pl} {eig : H → List E} {names : List String} {ham : (String → Option (PVal V)) → H}
    {kx ky : Grid} {params : Dict String (PVal V)} {mask : Bool} {extend : ℝ} {fuel : ℕ} {x y : Axis String (PVal V)} {s : Arr E}
    (hr : bands N vor eig a names ham kx ky params mask extend fuel = some (.ok (x, y, s))) :
    ∃ klat, klatPoints N a fuel = some (.ok klat) ∧ x = ⟨"k_x", (axisPoints kx extend (kMax (vor klat) 0)).map PVal.num⟩ ∧
      y = ⟨"k_y", (axisPoints ky extend (kMax (vor klat) 1)).map PVal.num⟩ ∧
      generate (hamK N a names ham) eig params (if mask then some (outsideBz klat) else none) x (some y) = .ok s := by
  unfold bands at hr
  split at hr
  · cases hr
  · cases hr
  · next klat hk =>
    refine ⟨klat, hk, ?_⟩
    simp only at hr
    split at hr
    · cases hr
    · next s' hg =>
      obtain ⟨rfl, h2⟩ := Prod.mk.inj (Except.ok.inj (Option.some.inj hr))
      obtain ⟨rfl, rfl⟩ := Prod.mk.inj h2
      exact ⟨rfl, rfl, hg⟩

/-- **C187**: what is plotted.  Every surface is the energy number `m` of the Hamiltonian of the system at the momentum `k` of the point of the plot, that is with the
parameters of the momenta set to `a_i·k` and all others as they were given; a point is left out only with `mask_brillouin_zone=True` and if it is outside of the first
Brillouin zone. -/
theorem C187_bands {N : Num Pl 2} (hN : NumOk N) {vor : List Pl → List Pl} {eig : H → List E} {periods : Fin 2 → Fin 2 → ℝ} {n0 n1 : String}
    {ham : (String → Option (PVal V)) → H} {kx ky : Grid} {params : Dict String (PVal V)} {mask : Bool} {extend : ℝ} {fuel : ℕ} {x y : Axis String (PVal V)} {s : Arr E}
    (hi : Indep fun i => WithLp.toLp 2 (periods i)) (hnames : n0 ≠ n1) (hp : ∀ nm, nm = n0 ∨ nm = n1 → nm = "k_x" ∨ nm = "k_y" ∨ lookup params nm = none)
    (hr : plot2dBands N vor eig (some ⟨2, 2, periods, [n0, n1], .finite, ham⟩) kx ky params mask extend fuel = some (.ok (x, y, s))) :
    plotMpl2 x y s = plotPlotly2 x y s ∧
    ∀ c ∈ plotMpl2 x y s, ∃ m < s.n, (plotMpl2 x y s)[m]? = some c ∧ c.length = y.vals.length * x.vals.length ∧
      ∀ (i j : ℕ) (_ : i < x.vals.length) (_ : j < y.vals.length), ∃ k0 k1 o, x.vals[i]? = some (.num k0) ∧ y.vals[j]? = some (.num k1) ∧
        c[j * x.vals.length + i]? = some (some (.num k0), some (.num k1), o) ∧
        (o = none → mask = true ∧ mk k0 k1 ∉ BZ fun i => WithLp.toLp 2 (periods i)) ∧
        (o ≠ none → ∃ env : String → Option (PVal V), o = (eig (ham env))[m]? ∧ env n0 = some (.num (periods 0 0 * k0 + periods 0 1 * k1)) ∧
          env n1 = some (.num (periods 1 0 * k0 + periods 1 1 * k1)) ∧
          ∀ nm, nm ≠ n0 → nm ≠ n1 → nm ≠ "k_x" → nm ≠ "k_y" → env nm = lookup params nm) := by
  rw [plot_eq] at hr
  set a : Fin 2 → Pl := fun i => WithLp.toLp 2 (periods i) with ha
  obtain ⟨klat, hk, hx, hy, hg⟩ := bands_ok hr
  have hxy : x.name ≠ y.name := by rw [hx, hy]; exact fun e => absurd e (by decide : "k_x" ≠ "k_y")
  obtain ⟨c1, -, -, c4⟩ := C174_surfaces hxy hg
  refine ⟨c1, fun c hc => ?_⟩
  obtain ⟨m, hm, d1, d2, d3⟩ := c4 c hc
  refine ⟨m, hm, d1, d2, fun i j hi' hj => ?_⟩
  obtain ⟨o, g1, g2, g3⟩ := d3 i j hi' hj
  obtain ⟨k0, hk0⟩ : ∃ k0, x.vals[i] = .num k0 := by
    have hm : ∀ v ∈ x.vals, ∃ q, v = .num q := by
      rw [hx]
      intro v hv
      obtain ⟨q, -, e⟩ := List.mem_map.mp hv
      exact ⟨q, e.symm⟩
    exact hm _ (List.getElem_mem hi')
  obtain ⟨k1, hk1⟩ : ∃ k1, y.vals[j] = .num k1 := by
    have hm : ∀ v ∈ y.vals, ∃ q, v = .num q := by
      rw [hy]
      intro v hv
      obtain ⟨q, -, e⟩ := List.mem_map.mp hv
      exact ⟨q, e.symm⟩
    exact hm _ (List.getElem_mem hj)
  rw [hk0, hk1] at g1 g2 g3
  have nx : x.name = "k_x" := by rw [hx]
  have ny : y.name = "k_y" := by rw [hy]
  rw [nx, ny] at g2 g3
  obtain ⟨v, coefs, R, hl, hR, hkl⟩ := klat_spec hk
  have hmask : mk k0 k1 ∈ BZ a → ∀ f, (if mask then some (outsideBz klat) else none) = some f →
      f [("k_x", (.num k0 : PVal V)), ("k_y", .num k1)] = false := by
    intro hbz f hf
    cases mask with
    | false => cases hf
    | true =>
      rw [← Option.some.inj hf, hkl, outside_iff, kOf_point]
      exact bz_region hi R coefs hbz
  refine ⟨k0, k1, o, by rw [List.getElem?_eq_getElem hi', hk0], by rw [List.getElem?_eq_getElem hj, hk1], g1, fun ho => ?_, fun ho => ?_⟩
  · constructor
    · cases mask with
      | true => rfl
      | false =>
        obtain ⟨_, -, -, h⟩ := g3 (fun f hf => by cases hf)
        exact absurd ho h
    · intro hbz
      obtain ⟨_, -, -, h⟩ := g3 (hmask hbz)
      exact h ho
  · have hno : ∀ f, (if mask then some (outsideBz klat) else none) = some f → f [("k_x", (.num k0 : PVal V)), ("k_y", .num k1)] = false := by
      intro f hf
      by_contra hne
      exact ho (g2 ⟨f, hf, by simpa using hne⟩)
    obtain ⟨f, hf, he, -⟩ := g3 hno
    have hkf := kOf_assigns hf
    unfold hamK at he
    refine ⟨_, he, ?_, ?_, ?_⟩
    all_goals rw [hkf]
    · have : ¬ (n0 ≠ "k_x" ∧ n0 ≠ "k_y" ∧ (f n0).isSome) := by
        rintro ⟨q1, q2, q3⟩
        rcases hp n0 (Or.inl rfl) with e | e | e
        · exact q1 e
        · exact q2 e
        · rw [hf.2 n0 (fun v hv => by simp at hv; tauto), e] at q3; cases q3
      rw [if_neg this]
      simp only [List.ofFn_succ, List.map_cons, List.zip_cons_cons, momentum hN hi]
      simp [lookup, hnames.symm, inner_two, mk, ha, mul_comm]
    · have : ¬ (n1 ≠ "k_x" ∧ n1 ≠ "k_y" ∧ (f n1).isSome) := by
        rintro ⟨q1, q2, q3⟩
        rcases hp n1 (Or.inr rfl) with e | e | e
        · exact q1 e
        · exact q2 e
        · rw [hf.2 n1 (fun v hv => by simp at hv; tauto), e] at q3; cases q3
      rw [if_neg this]
      simp only [List.ofFn_succ, List.map_cons, List.zip_cons_cons, momentum hN hi]
      simp [lookup, inner_two, mk, ha, mul_comm]
    · intro nm e0 e1 e2 e3
      have hfn := hf.2 nm (fun v hv => by simp at hv; tauto)
      by_cases hs : (f nm).isSome
      · rw [if_pos ⟨e2, e3, hs⟩, hfn]
      · rw [if_neg (by tauto)]
        have : f nm = none := by simpa using hs
        rw [← hfn, this]
        simp only [List.ofFn_succ, List.map_cons, List.zip_cons_cons, momentum hN hi]
        simp [lookup, Ne.symm e0, Ne.symm e1]

/-- **C187**, units of momentum: for such values of the parameters the phase that `wraparound` gives to a hopping across the translation by `w` periods (C66) is the one
of a plane wave with the momentum `k` of the plot, in units of inverse length. -/
theorem C187_bloch {periods : Fin 2 → Fin 2 → ℝ} {n0 n1 : String} {k0 k1 : ℝ} {env : String → Option (PVal V)}
    (h0 : env n0 = some (.num (periods 0 0 * k0 + periods 0 1 * k1))) (h1 : env n1 = some (.num (periods 1 0 * k0 + periods 1 1 * k1))) (w : Fin 2 → ℤ) :
    Wrap.bloch getNum [n0, n1] env w = Complex.exp (Complex.I * (⟪mk k0 k1, ∑ i, (w i : ℝ) • WithLp.toLp 2 (periods i)⟫ : ℝ)) := by
  unfold Wrap.bloch
  congr 2
  rw [inner_two]
  simp only [Fin.sum_univ_two, mk, PiLp.add_apply, PiLp.smul_apply]
  simp [h0, h1, getNum]
  ring

/-- **C187**: the region that is plotted.  The axes have equally spaced points on a box that contains the first Brillouin zone, extended as requested; if the angle of the
periods is not too far from 90 degrees, it is the smallest box. -/
theorem C187_box {N : Num Pl 2} (hN : NumOk N) {vor : List Pl → List Pl} (hv : VorOk vor) {eig : H → List E} {periods : Fin 2 → Fin 2 → ℝ} {names : List String}
    {ham : (String → Option (PVal V)) → H} {kx ky : Grid} {params : Dict String (PVal V)} {mask : Bool} {extend : ℝ} {fuel : ℕ} {x y : Axis String (PVal V)} {s : Arr E}
    (hi : Indep fun i => WithLp.toLp 2 (periods i))
    (hr : plot2dBands N vor eig (some ⟨2, 2, periods, names, .finite, ham⟩) kx ky params mask extend fuel = some (.ok (x, y, s))) :
    ∃ km : Fin 2 → ℝ, (∀ k ∈ BZ fun i => WithLp.toLp 2 (periods i), ∀ i, |k i| ≤ km i) ∧ x.name = "k_x" ∧ y.name = "k_y" ∧ AxisSpec kx extend (km 0) x.vals ∧
      AxisSpec ky extend (km 1) y.vals ∧
      ((∀ l : Fin 2, 2 * |periods 0 0 * periods 1 0 + periods 0 1 * periods 1 1| ≤ periods l 0 ^ 2 + periods l 1 ^ 2) →
        ∀ i, ∃ k ∈ BZ fun i => WithLp.toLp 2 (periods i), |k i| = km i) := by
  rw [plot_eq] at hr
  set a : Fin 2 → Pl := fun i => WithLp.toLp 2 (periods i) with ha
  obtain ⟨klat, hk, hx, hy, hg⟩ := bands_ok hr
  obtain ⟨v, coefs, R, hl, hR, hkl⟩ := klat_spec hk
  have hb := region_bounded hN hi hl hR
  rw [hkl] at hx hy
  refine ⟨fun i => kMax (vor (0 :: R.map fun z => (2 * Real.pi) • latPt (recip a) (rowDot z coefs))) i, fun k hk i => (box_spec hv hb i).1 k (bz_region hi R coefs hk), by rw [hx], by rw [hy],
    by rw [hx]; exact axis_spec _ _ _, by rw [hy]; exact axis_spec _ _ _, fun hs i => ?_⟩
  have ei : ⟪a 0, a 1⟫ = periods 0 0 * periods 1 0 + periods 0 1 * periods 1 1 := inner_two _ _
  have en : ∀ l, ‖a l‖ ^ 2 = periods l 0 ^ 2 + periods l 1 ^ 2 := fun l => by rw [← real_inner_self_eq_norm_sq, inner_two]; simp only [ha]; ring
  obtain ⟨r0, r1⟩ := recip_short hi (by rw [ei, en]; exact hs 0) (by rw [ei, en]; exact hs 1)
  rw [← exact_of_symm hN hi hl hR (symm_of_reduced hN (recip_li hi) r0 r1 hl)]
  exact (box_spec hv hb i).2

/-- **C187** (partial: the hypothesis on the angle of the periods is not needed in the documentation): with `mask_brillouin_zone=True` exactly the points of the first
Brillouin zone are plotted. -/
theorem C187_mask_partial {N : Num Pl 2} (hN : NumOk N) {vor : List Pl → List Pl} {eig : H → List E} {periods : Fin 2 → Fin 2 → ℝ} {names : List String}
    {ham : (String → Option (PVal V)) → H} {kx ky : Grid} {params : Dict String (PVal V)} {extend : ℝ} {fuel : ℕ} {x y : Axis String (PVal V)} {s : Arr E}
    (hi : Indep fun i => WithLp.toLp 2 (periods i)) (hs : ∀ l : Fin 2, 2 * |periods 0 0 * periods 1 0 + periods 0 1 * periods 1 1| ≤ periods l 0 ^ 2 + periods l 1 ^ 2)
    (hr : plot2dBands N vor eig (some ⟨2, 2, periods, names, .finite, ham⟩) kx ky params true extend fuel = some (.ok (x, y, s))) :
    ∀ c ∈ plotMpl2 x y s, ∀ (i j : ℕ) (_ : i < x.vals.length) (_ : j < y.vals.length), ∃ k0 k1 o,
      c[j * x.vals.length + i]? = some (some (.num k0), some (.num k1), o) ∧ (o = none ↔ mk k0 k1 ∉ BZ fun i => WithLp.toLp 2 (periods i)) := by
  rw [plot_eq] at hr
  set a : Fin 2 → Pl := fun i => WithLp.toLp 2 (periods i) with ha
  obtain ⟨klat, hk, hx, hy, hg⟩ := bands_ok hr
  have hxy : x.name ≠ y.name := by rw [hx, hy]; exact fun e => absurd e (by decide : "k_x" ≠ "k_y")
  obtain ⟨-, -, -, c4⟩ := C174_surfaces hxy hg
  intro c hc i j hi' hj
  obtain ⟨m, hm, d1, d2, d3⟩ := c4 c hc
  obtain ⟨o, g1, g2, g3⟩ := d3 i j hi' hj
  obtain ⟨k0, hk0⟩ : ∃ k0, x.vals[i] = .num k0 := by
    have hm : ∀ v ∈ x.vals, ∃ q, v = .num q := by
      rw [hx]
      intro v hv
      obtain ⟨q, -, e⟩ := List.mem_map.mp hv
      exact ⟨q, e.symm⟩
    exact hm _ (List.getElem_mem hi')
  obtain ⟨k1, hk1⟩ : ∃ k1, y.vals[j] = .num k1 := by
    have hm : ∀ v ∈ y.vals, ∃ q, v = .num q := by
      rw [hy]
      intro v hv
      obtain ⟨q, -, e⟩ := List.mem_map.mp hv
      exact ⟨q, e.symm⟩
    exact hm _ (List.getElem_mem hj)
  rw [hk0, hk1] at g1 g2 g3
  have nx : x.name = "k_x" := by rw [hx]
  have ny : y.name = "k_y" := by rw [hy]
  rw [nx, ny] at g2 g3
  obtain ⟨v, coefs, R, hl, hR, hkl⟩ := klat_spec hk
  have ei : ⟪a 0, a 1⟫ = periods 0 0 * periods 1 0 + periods 0 1 * periods 1 1 := inner_two _ _
  have en : ∀ l, ‖a l‖ ^ 2 = periods l 0 ^ 2 + periods l 1 ^ 2 := fun l => by rw [← real_inner_self_eq_norm_sq, inner_two]; simp only [ha]; ring
  obtain ⟨r0, r1⟩ := recip_short hi (by rw [ei, en]; exact hs 0) (by rw [ei, en]; exact hs 1)
  have hreg := exact_of_symm hN hi hl hR (symm_of_reduced hN (recip_li hi) r0 r1 hl)
  have hout : outsideBz klat [("k_x", (.num k0 : PVal V)), ("k_y", .num k1)] = false ↔ mk k0 k1 ∈ BZ a := by
    rw [hkl, outside_iff, kOf_point, ← hreg]
    rfl
  refine ⟨k0, k1, o, g1, fun ho hbz => ?_, fun hbz => g2 ⟨_, rfl, ?_⟩⟩
  · obtain ⟨_, -, -, h⟩ := g3 fun f hf => by
      rw [← Option.some.inj hf]
      exact hout.mpr hbz
    exact h ho
  · rw [← hout] at hbz
    simpa using hbz

/-- **C187**: everything but a wrapped-around finalized two-dimensional system is refused. -/
theorem C187_refused {N : Num Pl 2} {vor : List Pl → List Pl} {eig : H → List E} {kx ky : Grid} {params : Dict String (PVal V)} {mask : Bool} {extend : ℝ} {fuel : ℕ} :
    plot2dBands (V := V) N vor eig none kx ky params mask extend fuel = some (.error .notWrapped) ∧
    ∀ s : Syst V H, (s.kind = .infinite → plot2dBands N vor eig (some s) kx ky params mask extend fuel = some (.error .notFinite)) ∧
      (s.kind = .builder → plot2dBands N vor eig (some s) kx ky params mask extend fuel = some (.error .notFinalized)) ∧
      (s.kind = .finite → s.m ≠ 2 → plot2dBands N vor eig (some s) kx ky params mask extend fuel = some (.error .lattice2D)) ∧
      (s.kind = .finite → s.m = 2 → s.n ≠ 2 → plot2dBands N vor eig (some s) kx ky params mask extend fuel = some (.error .realspace2D)) := by
  refine ⟨rfl, fun s => ⟨fun h => ?_, fun h => ?_, fun h h2 => ?_, fun h h2 h3 => ?_⟩⟩ <;> unfold plot2dBands <;> simp only [h]
  · rfl
  · rfl
  · simp [h2]
  · simp [h2, h3]

end Kwant.Bands2D
