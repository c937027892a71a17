import Verif.Kpm.CorrThm
import Mathlib.Analysis.Calculus.Deriv.Star

/-! The integrand of `Correlator.__call__` (C124, continued). -/

set_option linter.unusedSectionVars false

namespace Kwant.Kpm
open Polynomial Finset
open Matrix hiding map_apply

variable {d : ℕ}

/-! ### Specification -/

/-- Chebyshev coefficient of the retarded Green's function up to `-i (2 - δ_n0)`: `exp(-i n arccos E) / √(1 - E²)`; see `C124_retarded`. -/
noncomputable def retarded (n : ℕ) (E : ℝ) : ℂ := Complex.exp (-Complex.I * (n * Real.arccos E)) / √(1 - E ^ 2)

/-- The same for the advanced Green's function, up to `i (2 - δ_n0)`. -/
noncomputable def advanced (n : ℕ) (E : ℝ) : ℂ := Complex.exp (Complex.I * (n * Real.arccos E)) / √(1 - E ^ 2)

/-- The same for the density of states, up to `(2 - δ_n0) / π`. -/
noncomputable def spectral (n : ℕ) (E : ℝ) : ℂ := (((Chebyshev.T ℝ (n : ℤ)).eval E : ℝ) : ℂ) / √(1 - E ^ 2)

/-- The Kubo-Bastin integrand: sum over `m, n` of `g_m g_n μ_mn` times
`ρ_m(E) dG⁺_n(E)/dE + dG⁻_m(E)/dE ρ_n(E)`. -/
noncomputable def bastin (N : ℕ) (g : ℕ → ℝ) (mu : ℕ → ℕ → ℂ) (E : ℝ) : ℂ :=
  ∑ m ∈ range N, ∑ n ∈ range N, ((g m * g n : ℝ) : ℂ) * mu m n * (spectral m E * deriv (retarded n) E + deriv (advanced m) E * spectral n E)

/-- The Fermi function. -/
noncomputable def fermiSpec (E mu T : ℝ) : ℝ := if T = 0 then (if E < mu then 1 else 0) else 1 / (1 + Real.exp ((E - mu) / T))

/-! ### Proofs -/

theorem tRe_eq (e : ℝ) (h1 : -1 ≤ e) (h2 : e ≤ 1) (n : ℕ) : tRe e n = (((Chebyshev.T ℝ (n : ℤ)).eval e : ℝ) : ℂ) := by
  unfold tRe
  congr 1
  have : Complex.I * Real.arccos e * n = ((n * Real.arccos e : ℝ) : ℂ) * Complex.I := by push_cast; ring
  rw [this, Complex.exp_ofReal_mul_I_re]
  conv_rhs => rw [← Real.cos_arccos h1 h2]
  rw [Chebyshev.T_real_cos]
  push_cast; rfl

theorem hasDerivAt_advanced (e : ℝ) (h1 : -1 < e) (h2 : e < 1) (n : ℕ) : HasDerivAt (advanced n) (ePlus e n / (√(1 - e ^ 2) : ℂ) ^ 3) e := by
  have hs : 0 < 1 - e ^ 2 := by nlinarith
  have hs' : (√(1 - e ^ 2) : ℂ) ≠ 0 := by
    rw [Ne, Complex.ofReal_eq_zero]; exact (Real.sqrt_pos.mpr hs).ne'
  have hsq : (√(1 - e ^ 2) : ℂ) ^ 2 = 1 - (e : ℂ) ^ 2 := by
    rw [← Complex.ofReal_pow, Real.sq_sqrt hs.le]; push_cast; rfl
  have d1 : HasDerivAt (fun E : ℝ => (Real.arccos E : ℂ)) ((-(1 / √(1 - e ^ 2)) : ℝ) : ℂ) e :=
    (Real.hasDerivAt_arccos h1.ne' h2.ne).ofReal_comp
  have d2 : HasDerivAt (fun E : ℝ => Complex.exp (Complex.I * (n * Real.arccos E)))
      (Complex.exp (Complex.I * (n * Real.arccos e)) * (Complex.I * (n * ((-(1 / √(1 - e ^ 2)) : ℝ) : ℂ)))) e :=
    ((d1.const_mul (n : ℂ)).const_mul Complex.I).cexp
  have d3 : HasDerivAt (fun E : ℝ => (√(1 - E ^ 2) : ℂ)) (((-(2 * e)) / (2 * √(1 - e ^ 2)) : ℝ) : ℂ) e := by
    have q : HasDerivAt (fun E : ℝ => 1 - E ^ 2) (-(2 * e)) e := by
      have := (hasDerivAt_pow 2 e).const_sub 1
      simpa using this
    exact (q.sqrt hs.ne').ofReal_comp
  have d4 := d2.div d3 hs'
  unfold advanced ePlus
  refine d4.congr_deriv ?_
  have e1 : Complex.exp (Complex.I * Real.arccos e * n) = Complex.exp (Complex.I * (n * Real.arccos e)) := by congr 1; ring
  rw [e1]
  push_cast
  field_simp
  have : (√(1 - e ^ 2) : ℂ) ^ 3 = (1 - (e : ℂ) ^ 2) * √(1 - e ^ 2) := by rw [← hsq]; ring
  linear_combination (0 : ℂ) * this

theorem retarded_star (n : ℕ) : retarded n = fun E => star (advanced n E) := by
  funext E
  unfold retarded advanced
  rw [Complex.star_def, map_div₀, Complex.conj_ofReal, ← Complex.exp_conj]
  congr 2
  simp

theorem hasDerivAt_retarded (e : ℝ) (h1 : -1 < e) (h2 : e < 1) (n : ℕ) : HasDerivAt (retarded n) (star (ePlus e n) / (√(1 - e ^ 2) : ℂ) ^ 3) e := by
  rw [retarded_star]
  refine (hasDerivAt_advanced e h1 h2 n).star.congr_deriv ?_
  rw [Complex.star_def, map_div₀, map_pow, Complex.conj_ofReal]

theorem star_tRe (e : ℝ) (n : ℕ) : star (tRe e n) = tRe e n := by
  unfold tRe; rw [Complex.star_def, Complex.conj_ofReal]

theorem factor_bastin (kernel : Kernel ℝ) (N : ℕ) (mm : List (List (List ℂ))) (r : Option ℕ) (e : ℝ) (h1 : -1 < e) (h2 : e < 1) :
    (((1 - e ^ 2) ^ 2 : ℝ) : ℂ)⁻¹ * integralFactor kernel N mm r e = bastin N (gKernel kernel N) (matrixOf mm r) e := by
  have hs : 0 < 1 - e ^ 2 := by nlinarith
  have hs' : (√(1 - e ^ 2) : ℂ) ≠ 0 := by
    rw [Ne, Complex.ofReal_eq_zero]; exact (Real.sqrt_pos.mpr hs).ne'
  have hsq : (((1 - e ^ 2) ^ 2 : ℝ) : ℂ) = (√(1 - e ^ 2) : ℂ) ^ 4 := by
    rw [← Complex.ofReal_pow, show (√(1 - e ^ 2)) ^ 4 = ((√(1 - e ^ 2)) ^ 2) ^ 2 by ring, Real.sq_sqrt hs.le]
  unfold integralFactor bastin
  rw [mul_sum]
  refine sum_congr rfl fun m _ => ?_
  rw [mul_sum]
  refine sum_congr rfl fun n _ => ?_
  rw [(hasDerivAt_advanced e h1 h2 m).deriv, (hasDerivAt_retarded e h1 h2 n).deriv]
  unfold spectral bigGamma
  rw [← tRe_eq e h1.le h2.le m, ← tRe_eq e h1.le h2.le n, star_mul', star_tRe, hsq]
  field_simp
  ring

/-! ### Theorems -/

/-- C124 (the sign).  For `0 < r < 1` let `w = r exp(-iθ)` with `0 < θ < π` and `z = (w + 1/w) / 2`.  Then `Im z > 0`, and
`1 / (z - x) = Σ_n (2 - δ_n0) T_n(x) wⁿ / ((1/w - w) / 2)` for `-1 ≤ x ≤ 1`; for `r → 1` the energy `z` tends to `E = cos θ` and `(1/w - w) / 2` to `i √(1 - E²)`.  So the
coefficients of `G⁺`, the limit from above, are `-i (2 - δ_n0) exp(-i n arccos E) / √(1 - E²)`. -/
theorem C124_retarded (θ : ℝ) (h0 : 0 < θ) (h1 : θ < Real.pi) :
    (∀ r : ℝ, 0 < r → r < 1 → ∀ x : ℝ, -1 ≤ x → x ≤ 1 → ∀ w z : ℂ, w = r * Complex.exp (-Complex.I * θ) → z = (w + w⁻¹) / 2 →
      0 < z.im ∧ HasSum (fun n : ℕ => (if n = 0 then 1 else 2) * (((Chebyshev.T ℝ (n : ℤ)).eval x : ℝ) : ℂ) * w ^ n / ((w⁻¹ - w) / 2)) (1 / (z - x))) ∧
    Filter.Tendsto (fun r : ℝ => ((r * Complex.exp (-Complex.I * θ) : ℂ) + (r * Complex.exp (-Complex.I * θ))⁻¹) / 2) (nhds 1) (nhds (Real.cos θ : ℂ)) ∧
    Filter.Tendsto (fun r : ℝ => ((r * Complex.exp (-Complex.I * θ) : ℂ)⁻¹ - (r * Complex.exp (-Complex.I * θ))) / 2) (nhds 1)
      (nhds (Complex.I * (√(1 - Real.cos θ ^ 2) : ℝ))) := by
  have hexp : Complex.exp (-Complex.I * θ) = Real.cos θ - Complex.I * Real.sin θ := by
    rw [show -Complex.I * (θ : ℂ) = ((-θ : ℝ) : ℂ) * Complex.I by push_cast; ring, Complex.exp_mul_I]
    push_cast
    rw [Complex.cos_neg, Complex.sin_neg]; ring
  have hinv : (Complex.exp (-Complex.I * θ))⁻¹ = Real.cos θ + Complex.I * Real.sin θ := by
    rw [← Complex.exp_neg, show -(-Complex.I * (θ : ℂ)) = (θ : ℂ) * Complex.I by ring, Complex.exp_mul_I]
    push_cast; ring
  have hsin : 0 < Real.sin θ := Real.sin_pos_of_pos_of_lt_pi h0 h1
  refine ⟨?_, ?_, ?_⟩
  · rintro r hr0 hr1 x hx1 hx2 w z hw hz
    have hw0 : w ≠ 0 := by
      rw [hw]; exact mul_ne_zero (by exact_mod_cast hr0.ne') (Complex.exp_ne_zero _)
    have hnorm : ‖w‖ = r := by
      rw [hw, norm_mul, Complex.norm_real, Real.norm_eq_abs, abs_of_pos hr0,
        show -Complex.I * (θ : ℂ) = ((-θ : ℝ) : ℂ) * Complex.I by push_cast; ring, Complex.norm_exp_ofReal_mul_I, mul_one]
    constructor
    · rw [hz, hw, mul_inv, hinv, hexp]
      have : (r : ℂ)⁻¹ = ((r⁻¹ : ℝ) : ℂ) := by push_cast; rfl
      rw [this]
      simp
      have h3 : 1 < r⁻¹ := (one_lt_inv₀ hr0).mpr hr1
      have h4 : (Complex.sin θ).re = Real.sin θ := by rw [← Complex.ofReal_sin, Complex.ofReal_re]
      rw [h4]
      nlinarith
    · obtain ⟨φ, hφ⟩ : ∃ φ : ℝ, x = Real.cos φ := ⟨Real.arccos x, (Real.cos_arccos hx1 hx2).symm⟩
      have hA : ‖w * Complex.exp (φ * Complex.I)‖ < 1 := by
        rw [norm_mul, Complex.norm_exp_ofReal_mul_I, mul_one, hnorm]; exact hr1
      have hB : ‖w * Complex.exp (-φ * Complex.I)‖ < 1 := by
        rw [norm_mul, show (-φ : ℂ) * Complex.I = ((-φ : ℝ) : ℂ) * Complex.I by push_cast; ring, Complex.norm_exp_ofReal_mul_I, mul_one, hnorm]; exact hr1
      have hsum := (((hasSum_geometric_of_norm_lt_one hA).add (hasSum_geometric_of_norm_lt_one hB)).sub (hasSum_ite_eq (0 : ℕ) (1 : ℂ))).div_const ((w⁻¹ - w) / 2)
      have hfun : (fun n : ℕ => (if n = 0 then 1 else 2) * (((Chebyshev.T ℝ (n : ℤ)).eval x : ℝ) : ℂ) * w ^ n / ((w⁻¹ - w) / 2)) =
          fun i => ((w * Complex.exp (φ * Complex.I)) ^ i + (w * Complex.exp (-φ * Complex.I)) ^ i - if i = 0 then 1 else 0) / ((w⁻¹ - w) / 2) := by
        funext n
        congr 1
        have ht : (((Chebyshev.T ℝ (n : ℤ)).eval x : ℝ) : ℂ) = (Complex.exp (φ * Complex.I) ^ n + Complex.exp (-φ * Complex.I) ^ n) / 2 := by
          rw [hφ, Chebyshev.T_real_cos, ← Complex.exp_nat_mul, ← Complex.exp_nat_mul]
          push_cast
          rw [Complex.cos]
          congr 2
          · congr 1; ring
          · congr 1; ring
        rw [ht, mul_pow, mul_pow]
        by_cases hn : n = 0
        · subst hn; simp
        · rw [if_neg hn, if_neg hn]; ring
      have hcos : (x : ℂ) = (Complex.exp (φ * Complex.I) + Complex.exp (-φ * Complex.I)) / 2 := by
        rw [hφ, Complex.ofReal_cos, Complex.cos]
      have hmul : Complex.exp (φ * Complex.I) * Complex.exp (-φ * Complex.I) = 1 := by
        rw [← Complex.exp_add]; simp
      rw [hfun]
      clear hfun
      generalize Complex.exp (φ * Complex.I) = p at *
      generalize Complex.exp (-φ * Complex.I) = q at *
      have hA1 : 1 - w * p ≠ 0 := by
        intro h
        rw [sub_eq_zero] at h
        rw [← h] at hA
        simp at hA
      have hB1 : 1 - w * q ≠ 0 := by
        intro h
        rw [sub_eq_zero] at h
        rw [← h] at hB
        simp at hB
      have hw2 : 1 - w ^ 2 ≠ 0 := by
        intro h
        have hn : ‖w‖ ^ 2 = 1 := by rw [← norm_pow, ← sub_eq_zero.mp h, norm_one]
        rw [hnorm] at hn
        nlinarith
      have hprod : (1 - w * p) * (1 - w * q) = 2 * w * (z - x) := by
        have : w * w⁻¹ = 1 := mul_inv_cancel₀ hw0
        rw [hcos, hz]
        linear_combination w ^ 2 * hmul - this
      have hzx : z - x ≠ 0 := by
        intro h
        rw [h, mul_zero] at hprod
        exact (mul_ne_zero hA1 hB1) hprod
      have hval : 1 / (z - x) = ((1 - w * p)⁻¹ + (1 - w * q)⁻¹ - 1) / ((w⁻¹ - w) / 2) := by
        have e1 : (1 - w * p)⁻¹ + (1 - w * q)⁻¹ - 1 = (1 - w ^ 2) / ((1 - w * p) * (1 - w * q)) := by
          field_simp
          linear_combination -w ^ 2 * hmul
        have e2 : (w⁻¹ - w) / 2 = (1 - w ^ 2) / (2 * w) := by field_simp
        rw [e1, e2, hprod]
        field_simp
      rw [hval]
      exact hsum
  · have hc : Filter.Tendsto (fun r : ℝ => (r : ℂ)) (nhds 1) (nhds 1) := by
      have := (Complex.continuous_ofReal.tendsto 1); simpa using this
    have h2 := (((hc.mul_const (Complex.exp (-Complex.I * θ))).add ((hc.mul_const (Complex.exp (-Complex.I * θ))).inv₀ (by
      rw [one_mul]; exact Complex.exp_ne_zero _)))).div_const 2
    convert h2 using 2
    rw [one_mul, hinv, hexp]; push_cast; ring
  · have hc : Filter.Tendsto (fun r : ℝ => (r : ℂ)) (nhds 1) (nhds 1) := by
      have := (Complex.continuous_ofReal.tendsto 1); simpa using this
    have h2 := (((hc.mul_const (Complex.exp (-Complex.I * θ))).inv₀ (by
      rw [one_mul]; exact Complex.exp_ne_zero _)).sub (hc.mul_const (Complex.exp (-Complex.I * θ)))).div_const 2
    convert h2 using 2
    rw [one_mul, hinv, hexp, ← Real.sin_sq, Real.sqrt_sq hsin.le]; push_cast; ring

/-- C124 (the result).  For a non-negative temperature the call returns `8 / a²` times what Simpson's rule gives for the integral of the Fermi function times
the Kubo-Bastin integrand with the moments, over the energies, rescaled to the interval `(-1, 1)`; a negative temperature is refused.  The kernel
factors are those of the kernel applied to ones, that of moment 0 divided by 2. -/
theorem C124_call (simpson : (ℕ → ℂ) → (ℕ → ℝ) → ℕ → ℂ)
    (hsimp : ∀ y y' x n, (∀ k < n, y k = y' k) → simpson y x n = simpson y' x n)
    (H : Matrix (Fin d) (Fin d) ℂ) (op1 op2 : Vec d → Vec d) (kernel : Kernel ℝ) (src : ℕ → Vec d) (len : Option ℕ) (acc : Bool) (a b : ℝ) (ha : a ≠ 0) (c : Cor d)
    (h : CorReach H op1 op2 kernel src len acc a b c) (r : Option ℕ) (mu T : ℝ) :
    (0 ≤ T → c.call simpson r mu T = .ok (((8 / a ^ 2 : ℝ) : ℂ) * simpson
      (fun k => ((fermiSpec (a * node (2 * c.numMoments) k + b) mu T : ℝ) : ℂ) *
        bastin c.numMoments (fun m => (if m = 0 then 1 / 2 else 1) * kernel c.numMoments (fun _ => 1) m) (c.matrix r) (node (2 * c.numMoments) k))
      (node (2 * c.numMoments)) (2 * c.numMoments))) ∧
    (T < 0 → c.call simpson r mu T = .error .value) := by
  obtain ⟨source, N, nv, hav, hnv, S, rfl, rfl, rfl, rfl, rfl⟩ := reach_sync h
  have hRa : c.R.a = c.a := S.r.inv.a
  have hRb : c.R.b = c.b := S.r.inv.b
  have hRN : c.R.numMoments = N := S.r.num
  constructor
  · intro hT
    unfold Cor.call
    rw [if_neg (not_lt.mpr hT), if_neg (by rw [S.nE, hRN]; simp)]
    simp only
    rw [S.fac, S.num, hRN]
    have he : ∀ k, (c.R.energy k - c.b) / c.a = node (2 * N) k := by
      intro k
      unfold SD.energy
      rw [hRa, hRb, hRN]
      field_simp
      ring
    have hpre : ((2 * 4 ^ 2 / (2 * c.a) ^ 2 : ℝ) : ℂ) = ((8 / c.a ^ 2 : ℝ) : ℂ) := by
      congr 1
      field_simp
      norm_num
    rw [hpre]
    simp only [he]
    congr 2
    refine hsimp _ _ _ _ fun k hk => ?_
    obtain ⟨n1, n2⟩ := node_mem (2 * N) k hk
    have hE : c.R.energy k = c.a * node (2 * N) k + c.b := by
      unfold SD.energy
      rw [hRa, hRb, hRN]
    have hf : fermi (c.R.energy k) mu T = .ok (fermiSpec (c.a * node (2 * N) k + c.b) mu T) := by
      rw [hE]
      unfold fermi fermiSpec
      rw [if_neg (not_lt.mpr hT)]
      by_cases hT0 : T = 0
      · rw [if_pos hT0, if_pos hT0]
        simp only [sub_neg]
      · rw [if_neg hT0, if_neg hT0]
    simp only [hf]
    have hg : (fun m => (if m = 0 then 1 / 2 else 1) * c.kernel N (fun _ => 1) m) = gKernel c.kernel N := by
      funext m
      unfold gKernel
      split
      · ring
      · ring
    rw [hg]
    have := factor_bastin c.kernel N c.mm r (node (2 * N) k) n1 n2
    rw [show c.matrix r = matrixOf c.mm r from rfl, ← this]
    push_cast
    ring
  · intro hT
    unfold Cor.call
    rw [if_pos hT]

end Kwant.Kpm
