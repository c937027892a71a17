import Verif.Kpm.Main
import Mathlib.Analysis.SpecialFunctions.Trigonometric.Chebyshev.Basic
import Mathlib.Analysis.SpecialFunctions.Trigonometric.Chebyshev.ChebyshevGauss
import Mathlib.Analysis.SpecialFunctions.Trigonometric.Inverse
import Mathlib.Analysis.SpecialFunctions.Sqrt

/-!
Model of kpm.py: `SpectralDensity._moments`, `energies`, `densities`, `__call__`, `integrate`, the kernels, `_chebyshev_nodes`,
`_calc_fft_moments`; the theorems about them.

Simplifications
* Exact arithmetic.  The moments are elements of a real vector space `W`: numbers, or arrays if the operator returns arrays.  `real_if_close` and the
  transposes, which only move axes, are not modelled.
* With `mean=False` the same calculation is done for every vector.
* `scipy.fft.dct` of type 3 and `chebval` are the sums they are documented to calculate.
-/

set_option linter.unusedSectionVars false

namespace Kwant.Kpm
open Polynomial Finset
open Matrix hiding map_apply

section
variable {V W : Type} [AddCommGroup V] [Module ℂ V] [AddCommGroup W] [Module ℝ W]

/-- A kernel: takes the number of moments and the moments and returns stabilized moments. -/
abbrev Kernel (W : Type) := ℕ → (ℕ → W) → ℕ → W

/-- The array of `jackson_kernel` (kpm.py l.1113-1119). -/
noncomputable def jacksonArr (N m : ℕ) : ℝ :=
  (((N : ℝ) - m + 1) * Real.cos (Real.pi * m / (N + 1)) + Real.sin (Real.pi * m / (N + 1)) / Real.tan (Real.pi / (N + 1))) / (N + 1)

/-- `jackson_kernel` (kpm.py l.1106-1123) -/
noncomputable def jackson : Kernel W := fun N m n => jacksonArr N n • m n

/-- The array of `lorentz_kernel` (kpm.py l.1135-1138). -/
noncomputable def lorentzArr (l : ℝ) (N m : ℕ) : ℝ := Real.sinh (l * (1 - m / N)) / Real.sinh l

/-- `lorentz_kernel` (kpm.py l.1126-1142) -/
noncomputable def lorentz (l : ℝ) : Kernel W := fun N m n => lorentzArr l N n • m n

/-- The kernel that changes nothing. -/
def noKernel : Kernel W := fun _ m => m

/-- `moments` of one vector, or their mean (kpm.py l.379-383): `r = none` is `mean=True`. -/
noncomputable def SD.raw (s : SD V W) (r : Option ℕ) (n : ℕ) : W :=
  match r with
  | none => (s.numVectors : ℝ)⁻¹ • (s.moments.map fun l => l.getD n 0).sum
  | some r => (s.moments.getD r []).getD n 0

/-- `_moments` (kpm.py l.378-388) -/
noncomputable def SD.stab (s : SD V W) (K : Kernel W) (r : Option ℕ) : ℕ → W := K s.numMoments fun n => s.a⁻¹ • s.raw r n

/-- `_chebyshev_nodes` (kpm.py l.1190-1194): `np.linspace(π, 0, n, endpoint=False)` has the step `-π / n`. -/
noncomputable def node (n k : ℕ) : ℝ := Real.cos ((Real.pi + k * (-Real.pi / n)) + (-Real.pi / n) / 2)

/-- `energies` (kpm.py l.254-257); `SAMPLING = 2` (kpm.py l.36). -/
noncomputable def SD.energy (s : SD V W) (k : ℕ) : ℝ := s.a * node (2 * s.numMoments) k + s.b

/-- `fft.dct(x, type=3)`: `y[k] = x[0] + 2 Σ_{n=1}^{N-1} x[n] cos(π (2k+1) n / (2N))` -/
noncomputable def dct3 (N : ℕ) (x : ℕ → W) (k : ℕ) : W :=
  x 0 + ∑ n ∈ Ico 1 N, (2 * Real.cos (Real.pi * (2 * k + 1) * n / (2 * N))) • x n

/-- `gammas` of `_calc_fft_moments` (kpm.py l.1197-1219): the moments are padded with zeros and the result is reversed. -/
noncomputable def gammas (N : ℕ) (m : ℕ → W) (k : ℕ) : W :=
  dct3 (2 * N) (fun n => if n < N then m n else 0) (2 * N - 1 - k)

/-- `rho` of `_calc_fft_moments` (kpm.py l.1221-1225). -/
noncomputable def fftDensity (N : ℕ) (m : ℕ → W) (k : ℕ) : W := (Real.pi * √(1 - node (2 * N) k ^ 2))⁻¹ • gammas N m k

/-- `densities` (kpm.py l.251-252) -/
noncomputable def SD.density (s : SD V W) (K : Kernel W) (r : Option ℕ) (k : ℕ) : W := fftDensity s.numMoments (s.stab K r) k

/-- `chebval(e, c)` with `N` coefficients. -/
noncomputable def chebval (e : ℝ) (N : ℕ) (c : ℕ → W) : W := ∑ n ∈ range N, (Chebyshev.T ℝ (n : ℤ)).eval e • c n

/-- `__call__(energy)` (kpm.py l.263-295) for an energy inside the bounds. -/
noncomputable def SD.at (s : SD V W) (K : Kernel W) (r : Option ℕ) (energy : ℝ) : W :=
  let e := (energy - s.b) / s.a
  (Real.pi * √(1 - e) * √(1 + e))⁻¹ • chebval e s.numMoments fun n => if n = 0 then s.stab K r 0 else (2 : ℝ) • s.stab K r n

/-- `integrate` (kpm.py l.297-316); `none`: no distribution function. -/
noncomputable def SD.integrate (s : SD V W) (K : Kernel W) (r : Option ℕ) (f : Option (ℝ → ℝ)) : W :=
  (s.a / (2 * s.numMoments)) • ∑ k ∈ range (2 * s.numMoments),
    (match f with | none => 1 | some f => f (s.energy k)) • gammas s.numMoments (s.stab K r) k

/-! ### Nodes -/

/-- The angles of the nodes. -/
noncomputable def angle (n k : ℕ) : ℝ := Real.pi - (2 * k + 1) * Real.pi / (2 * n)

theorem node_eq (n k : ℕ) : node n k = Real.cos (angle n k) := by
  unfold node angle
  congr 1
  rcases Nat.eq_zero_or_pos n with rfl | hn
  · simp
  · have : (n : ℝ) ≠ 0 := by positivity
    field_simp
    ring

theorem angle_pos (n k : ℕ) (hk : k < n) : 0 < angle n k := by
  unfold angle
  have hn : (0 : ℝ) < n := by exact_mod_cast (show 0 < n by omega)
  have h1 : (2 * (k : ℝ) + 1) < 2 * n := by exact_mod_cast (show 2 * k + 1 < 2 * n by omega)
  rw [sub_pos, div_lt_iff₀ (by positivity)]
  nlinarith [Real.pi_pos]

theorem angle_lt (n k : ℕ) (hn : 0 < n) : angle n k < Real.pi := by
  unfold angle
  have hn : (0 : ℝ) < n := by exact_mod_cast hn
  have : 0 < (2 * (k : ℝ) + 1) * Real.pi / (2 * n) := by have := Real.pi_pos; positivity
  linarith

theorem node_mem (n k : ℕ) (hk : k < n) : -1 < node n k ∧ node n k < 1 := by
  rw [node_eq]
  have h1 := angle_pos n k hk
  have h2 := angle_lt n k (by omega)
  constructor
  · rw [← Real.cos_pi]; exact Real.cos_lt_cos_of_nonneg_of_le_pi h1.le le_rfl h2
  · rw [← Real.cos_zero]; exact Real.cos_lt_cos_of_nonneg_of_le_pi le_rfl h2.le h1

theorem node_lt (n k j : ℕ) (hkj : k < j) (hj : j < n) : node n k < node n j := by
  rw [node_eq, node_eq]
  apply Real.cos_lt_cos_of_nonneg_of_le_pi (angle_pos n j hj).le (angle_lt n k (by omega)).le
  unfold angle
  have hn : (0 : ℝ) < n := by exact_mod_cast (show 0 < n by omega)
  have h : (k : ℝ) < j := by exact_mod_cast hkj
  have : (2 * (k : ℝ) + 1) * Real.pi / (2 * n) < (2 * j + 1) * Real.pi / (2 * n) := by
    apply div_lt_div_of_pos_right _ (by positivity)
    nlinarith [Real.pi_pos]
  linarith

/-- The FFT is the Chebyshev series at the nodes. -/
theorem gammas_eq (N : ℕ) (m : ℕ → W) (k : ℕ) (hk : k < 2 * N) :
    gammas N m k = chebval (node (2 * N) k) N fun n => if n = 0 then m 0 else (2 : ℝ) • m n := by
  unfold gammas dct3 chebval
  have hN : 0 < N := by omega
  beta_reduce
  rw [if_pos hN]
  have hsplit : Ico 1 (2 * N) = Ico 1 N ∪ Ico N (2 * N) := (Ico_union_Ico_eq_Ico (by omega) (by omega)).symm
  rw [hsplit, sum_union (Ico_disjoint_Ico_consecutive _ _ _)]
  have hz : ∑ n ∈ Ico N (2 * N), (2 * Real.cos (Real.pi * (2 * (2 * N - 1 - k : ℕ) + 1) * n / (2 * (2 * N : ℕ)))) • (if n < N then m n else 0) = (0 : W) := by
    apply sum_eq_zero
    intro n hn
    rw [mem_Ico] at hn
    rw [if_neg (by omega), smul_zero]
  rw [hz, add_zero, range_eq_Ico, sum_eq_sum_Ico_succ_bot hN]
  congr 1
  · rw [if_pos rfl]; simp
  · apply sum_congr rfl
    intro n hn
    rw [mem_Ico] at hn
    rw [if_pos hn.2, if_neg (by omega), smul_smul, node_eq, Chebyshev.T_real_cos]
    congr 1
    rw [mul_comm]
    congr 1
    unfold angle
    have e : ((2 * N - 1 - k : ℕ) : ℝ) = 2 * N - 1 - k := by
      rw [Nat.cast_sub (by omega), Nat.cast_sub (by omega)]; push_cast; ring
    rw [e]
    have hN' : (N : ℝ) ≠ 0 := by positivity
    congr 1
    push_cast
    field_simp
    ring

/-! ### Sums over the nodes -/

theorem sum_cos_nodes (M : ℕ) (j : ℤ) (hj : ¬ (2 * M : ℤ) ∣ j) (hM : 0 < M) : ∑ k ∈ range M, Real.cos (j * angle M k) = 0 := by
  have h := Chebyshev.sumZeroes_T_of_not_dvd (n := M) hj
  unfold Chebyshev.sumZeroes at h
  have hM' : (M : ℝ) ≠ 0 := by positivity
  have hpi := Real.pi_ne_zero
  have h2 : ∑ i ∈ range M, (Chebyshev.T ℝ j).eval (Real.cos ((2 * (i : ℝ) + 1) / (2 * M) * Real.pi)) = 0 := by
    rcases mul_eq_zero.mp h with h | h
    · exact absurd h (by positivity)
    · exact h
  rw [← h2, ← sum_range_reflect]
  apply sum_congr rfl
  intro k hk
  rw [mem_range] at hk
  rw [Chebyshev.T_real_cos]
  congr 1
  unfold angle
  have e : ((M - 1 - k : ℕ) : ℝ) = M - 1 - k := by
    rw [Nat.cast_sub (by omega), Nat.cast_sub (by omega)]; push_cast; ring
  rw [e]
  field_simp
  ring

/-- The nodes are a quadrature for `T_n T_m`. -/
theorem sum_T_T (M : ℕ) (n m : ℕ) (h : n + m < 2 * M) :
    ∑ k ∈ range M, (Chebyshev.T ℝ (n : ℤ)).eval (node M k) * (Chebyshev.T ℝ (m : ℤ)).eval (node M k) = if n = m then (if n = 0 then (M : ℝ) else M / 2) else 0 := by
  have hM : 0 < M := by omega
  have key : ∀ k, (Chebyshev.T ℝ (n : ℤ)).eval (node M k) * (Chebyshev.T ℝ (m : ℤ)).eval (node M k)
      = (Real.cos (((n + m : ℕ) : ℤ) * angle M k) + Real.cos (((n : ℤ) - m : ℤ) * angle M k)) / 2 := by
    intro k
    rw [node_eq, Chebyshev.T_real_cos, Chebyshev.T_real_cos]
    push_cast
    rw [add_mul, sub_mul, Real.cos_add, Real.cos_sub]
    ring
  simp only [key]
  rw [← sum_div, sum_add_distrib]
  have hsum : n + m ≠ 0 → ∑ k ∈ range M, Real.cos (((n + m : ℕ) : ℤ) * angle M k) = 0 := by
    intro h0
    apply sum_cos_nodes M _ _ hM
    rintro ⟨c, hc⟩
    have hc1 : 0 < c := by
      by_contra hneg
      have : (2 * (M : ℤ)) * c ≤ 0 := mul_nonpos_of_nonneg_of_nonpos (by positivity) (by omega)
      omega
    have : (2 * (M : ℤ)) ≤ 2 * M * c := by nlinarith
    omega
  by_cases hnm : n = m
  · subst hnm
    rw [if_pos rfl]
    have e1 : ∑ k ∈ range M, Real.cos ((((n : ℤ) - n : ℤ) : ℝ) * angle M k) = M := by simp
    rw [e1]
    by_cases h0 : n = 0
    · subst h0; simp
    · rw [if_neg h0, hsum (by omega), zero_add]
  · rw [if_neg hnm, hsum (by omega), zero_add]
    have : ∑ k ∈ range M, Real.cos ((((n : ℤ) - m : ℤ) : ℝ) * angle M k) = 0 := by
      apply sum_cos_nodes M _ _ hM
      rintro ⟨c, hc⟩
      have hc0 : c ≠ 0 := by rintro rfl; omega
      rcases lt_or_gt_of_ne hc0 with hc1 | hc1
      · have : 2 * (M : ℤ) * c ≤ 2 * M * (-1) := by nlinarith
        omega
      · have : (2 * (M : ℤ)) ≤ 2 * M * c := by nlinarith
        omega
    rw [this]; simp

/-- Integrating `T_j` picks moment `j`, and nothing for the polynomials between the order of the expansion and three times the order. -/
theorem sum_gammas_T (N : ℕ) (m : ℕ → W) (j : ℕ) (hj : j ≤ 3 * N) :
    ∑ k ∈ range (2 * N), (Chebyshev.T ℝ (j : ℤ)).eval (node (2 * N) k) • gammas N m k = (2 * N : ℝ) • (if j < N then m j else 0) := by
  have step : ∀ k ∈ range (2 * N), (Chebyshev.T ℝ (j : ℤ)).eval (node (2 * N) k) • gammas N m k
      = ∑ n ∈ range N, ((Chebyshev.T ℝ (n : ℤ)).eval (node (2 * N) k) * (Chebyshev.T ℝ (j : ℤ)).eval (node (2 * N) k)) •
          (if n = 0 then m 0 else (2 : ℝ) • m n) := by
    intro k hk
    rw [gammas_eq N m k (mem_range.mp hk)]
    unfold chebval
    rw [smul_sum]
    apply sum_congr rfl
    intro n _
    rw [smul_smul, mul_comm]
  rw [sum_congr rfl step, sum_comm]
  have inner : ∀ n ∈ range N, ∑ k ∈ range (2 * N), ((Chebyshev.T ℝ (n : ℤ)).eval (node (2 * N) k) * (Chebyshev.T ℝ (j : ℤ)).eval (node (2 * N) k)) •
      (if n = 0 then m 0 else (2 : ℝ) • m n) = if n = j then (2 * N : ℝ) • m j else 0 := by
    intro n hn
    rw [mem_range] at hn
    rw [← sum_smul, sum_T_T (2 * N) n j (by omega)]
    by_cases hnj : n = j
    · subst hnj
      rw [if_pos rfl, if_pos rfl]
      by_cases h0 : n = 0
      · subst h0; simp
      · rw [if_neg h0, if_neg h0, smul_smul]
        congr 1; push_cast; ring
    · rw [if_neg hnj, if_neg hnj, zero_smul]
  rw [sum_congr rfl inner, sum_ite_eq' (range N) j]
  by_cases hjN : j < N
  · rw [if_pos (mem_range.mpr hjN), if_pos hjN]
  · rw [if_neg (by rw [mem_range]; exact hjN), if_neg hjN, smul_zero]

end
end Kwant.Kpm
